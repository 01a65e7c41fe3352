import Verif.Proof.RInn3
import Verif.Proof.RBlock

/-! Forward inner transforms of real data (`p>2`): the residue `0`. -/

namespace Fftwpp
open Finset

theorem inner_algZ {M L m q p n : ℕ} (hM : M = m * q) (hq : q = p * n) (hm : m ≠ 0) (hn : n ≠ 0) (x : ℕ → ℂ) (a : ℤ) (s : ℕ) :
    (∑ u ∈ range p, (if s + m * u < L then x (s + m * u) else 0) * w p (a * u)) * w M (s * (n * a)) = fillv M L m p x (n * a) s := by
  unfold fillv
  rw [sum_mul]
  refine sum_congr rfl fun u _ => ?_
  have h1 : ((s + m * u : ℕ) : ℤ) * (n * a) = s * (n * a) + (m : ℕ) * ((n : ℕ) * (a * u)) := by push_cast; ring
  rw [h1, w_add, hM, w_base' m q hm, hq, w_base p n hn]
  split_ifs <;> ring

theorem w_par {p p2 : ℕ} (hp : p = 2 * p2) (h0 : p2 ≠ 0) (u : ℕ) : w p (-((p2 : ℤ) * u)) = w 2 u := by
  rw [show w p (-((p2 : ℤ) * u)) = w p ((p2 : ℕ) * (u : ℤ)) by
    apply w_congr; rw [hp]; exact ⟨-u, by push_cast; ring⟩, hp, w_base 2 p2 h0]

theorem w_four_two (a u : ℕ) : w 4 ((a + 2 * u : ℕ) : ℤ) = w 4 a * w 2 u := by
  rw [show ((a + 2 * u : ℕ) : ℤ) = a + ((2 : ℕ) : ℤ) * u by push_cast; ring, w_add, show (4 : ℕ) = 2 * 2 by rfl, w_base 2 2 (by omega)]

theorem even_alg {M L m h k p : ℕ} (hM : M = h * k * 4) (hm : m = 2 * h) (hh : h ≠ 0) (hk : k ≠ 0) (x : ℕ → ℂ) (s : ℕ) :
    w M (s * k) * ((∑ u ∈ range p, (if s + m * u < L then x (s + m * u) else 0) * w 2 u) +
      Complex.I * ∑ u ∈ range p, (if s + h + m * u < L then x (s + h + m * u) else 0) * w 2 u) = fillv M L h (2 * p) x k s := by
  unfold fillv
  simp only [Re.w_half hM hh hk]
  rw [sum_split p 2]
  simp only [sum_range_succ, sum_range_zero, zero_add]
  rw [mul_add, mul_sum, mul_sum, mul_sum]
  congr 1
  · refine sum_congr rfl fun u _ => ?_
    have e := w_four_two 0 u
    rw [Nat.zero_add] at e
    rw [e, show s + h * (2 * u) = s + m * u by rw [hm]; ring]
    simp only [Nat.cast_zero, w_zero]
    split_ifs <;> ring
  · refine sum_congr rfl fun u _ => ?_
    have e := w_four_two 1 u
    rw [e, show s + h * (1 + 2 * u) = s + h + m * u by rw [hm]; ring, Nat.cast_one, Re.w_four_one]
    split_ifs <;> ring

theorem w_two_real (u : ℕ) : (starRingEnd ℂ) (w 2 u) = w 2 u := by
  rw [w_conj]; apply w_congr; exact ⟨-u, by push_cast; ring⟩

theorem real_sum {p : ℕ} (g : ℕ → ℝ) : ((∑ u ∈ range p, (g u : ℂ) * w 2 u).re : ℂ) = ∑ u ∈ range p, (g u : ℂ) * w 2 u := by
  rw [← Complex.conj_eq_iff_re, map_sum]
  refine sum_congr rfl fun u _ => ?_
  rw [map_mul, w_two_real, Complex.conj_ofReal]

namespace Re
variable {o : Re} {f F U W : Ptr} {mem : Mem} {r : ℕ} {W? : Option Ptr} {Q : Unit → Mem → Prop}
local notation "conj" => starRingEnd ℂ

/-- Separation of the arrays of a call with `r=0`. -/
def Sep0 (o : Re) (W F : Ptr) : Prop := (o.inplace = true ∧ o.C = o.S ∧ W = F) ∨ ((o.inplace = false ∨ o.C < o.S) ∧ W.buf ≠ F.buf)

structure Pre0 (o : Re) (mem : Mem) (f F W : Ptr) : Prop where
  fF : f.buf ≠ F.buf
  fW : f.buf ≠ W.buf
  sep : o.Sep0 W F
  vf : o.ValidF mem f
  vF : mem.block F o.outputSize
  vW : mem.block W o.outputSize

/-- The loops that copy the data. -/
noncomputable def zFill (o : Re) (f W : Ptr) : Cmd Unit := do
  let fr := dptr f
  let Wr := dptr W
  let pm1 := o.p - 1
  let stop := o.L - o.m * pm1
  let Smpm1 := o.Sm * pm1
  parD (rng3 0 pm1 0 o.m 0 o.C) fun (t, s, c) => copyD (Wr + o.Cm * t + o.C * s + c) (fr + o.Sm * t + o.S * s + c)
  parD (rng2 0 stop 0 o.C) fun (s, c) => copyD (Wr + o.Cm * pm1 + o.C * s + c) (fr + Smpm1 + o.S * s + c)
  parD (rng2 stop o.m 0 o.C) fun (s, c) => setD (Wr + o.Cm * pm1 + o.C * s + c) 0

/-- The loops that combine the real values of the last row. -/
noncomputable def zPack (o : Re) (W : Ptr) : Cmd Unit := do
  let Wr := dptr W
  let p2 := ceilquotient o.p 2
  let h := o.e - 1
  let p2Cm := p2 * o.Cm
  let Ft := W + p2Cm
  let Wt := Wr + (2 * p2Cm : ℕ)
  let Wth := Wt + (2 * o.C * h : ℕ)
  parD (rng 0 o.C) fun c => do
    let c2 := 2 * c
    let x ← getD (Wt + c2)
    let y ← getD (Wth + c2)
    setC (Ft + c) ⟨x, y⟩
  parD (rng2 1 h 0 o.C) fun (s, c) => do
    let zeta ← o.Zetaqm.get (o.m * o.n * p2 + s)
    let c2 := 2 * c
    let x ← getD (Wt + (2 * o.C * s : ℕ) + c2)
    let y ← getD (Wth + (2 * o.C * s : ℕ) + c2)
    setC (Ft + o.C * s + c) (zeta * ⟨x, y⟩)

noncomputable def zX (o : Re) (mem : Mem) (f : Ptr) (j c : ℕ) : ℝ := if j < o.L then mem.cell (dptr f + (o.S * j + c)) else 0

theorem zX_eq (j c : ℕ) : ((o.zX mem f j c : ℝ) : ℂ) = if j < o.L then o.X mem f c j else 0 := by
  unfold zX X; split_ifs <;> simp

section
variable (w' : o.WF) (hp : 2 < o.p)
include w' hp

/-- Words of the work array, rows of stride `C`. -/
theorem vC {U : Ptr} (hb : mem.block U o.outputSize) {j c : ℕ} (hj : j < o.m * (o.p / 2 + 1)) (hc : c < o.C) : mem.valid (U + (o.C * j + c)) := by
  refine hb _ ?_
  rw [w'.outputSize_eq]
  refine lt_of_lt_of_le (radix_lt hc (lt_of_lt_of_le hj (w'.rows_big hp))) (Nat.mul_le_mul_right _ w'.C_le_S)

theorem inC {U : Ptr} {j c : ℕ} (hj : j < o.m * (o.p / 2 + 1)) (hc : c < o.C) : InArr U o.outputSize (U + (o.C * j + c)) := by
  refine ⟨_, ?_, rfl⟩
  rw [w'.outputSize_eq]
  exact lt_of_lt_of_le (radix_lt hc (lt_of_lt_of_le hj (w'.rows_big hp))) (Nat.mul_le_mul_right _ w'.C_le_S)

/-- Doubles of the work array, rows of stride `C`. -/
theorem dC {j c : ℕ} (hj : j < o.m * o.p) (hc : c < o.C) : (o.C * j + c) / 2 < o.outputSize := by
  have h1 := radix_lt hc hj
  have h2 : o.C * (o.m * (o.p / 2 + 1)) ≤ o.outputSize := by
    rw [w'.outputSize_eq]
    exact Nat.mul_le_mul w'.C_le_S (w'.rows_big hp)
  have h3 : o.C * (o.m * o.p) ≤ 2 * (o.C * (o.m * (o.p / 2 + 1))) := by
    have : o.p ≤ 2 * (o.p / 2 + 1) := by omega
    calc o.C * (o.m * o.p) ≤ o.C * (o.m * (2 * (o.p / 2 + 1))) := Nat.mul_le_mul_left _ (Nat.mul_le_mul_left _ this)
      _ = _ := by ring
  omega

theorem zFill_ok (pre : o.Pre0 mem f F W)
    (hQ : ∀ m', mem.Upd m' (InArr W o.outputSize) → (∀ j < o.m * o.p, ∀ c < o.C, m'.cell (dptr W + (o.C * j + c)) = o.zX mem f j c) → Q () m') :
    (o.zFill f W).Ok mem Q := by
  have hm := w'.m_pos
  have hub := w'.p_ub
  have hlb := w'.p_lb
  have hpm : o.m * (o.p - 1) + o.m = o.m * o.p := by
    obtain ⟨k, hk⟩ : ∃ k, o.p = k + 1 := ⟨o.p - 1, by omega⟩
    rw [hk]; simp [Nat.mul_succ]
  have hfb : ∀ i : ℕ, (dptr f + i).buf ≠ (dptr W).buf := fun i => by simpa [dptr] using pre.fW
  have ha3 : ∀ t s c, o.Sm * t + o.S * s + c = o.S * (o.m * t + s) + c := fun t s c => by rw [w'.Sm_eq]; ring
  have hc3 : ∀ t s c, o.Cm * t + o.C * s + c = o.C * (o.m * t + s) + c := fun t s c => by rw [w'.Cm_eq]; ring
  have vD : ∀ {m1 : Mem}, m1.size = mem.size → ∀ {j c : ℕ}, j < o.m * o.p → c < o.C → m1.split.valid (dptr W + (o.C * j + c)) := by
    intro m1 hs j c hj hc
    rw [Mem.split_valid, RPlan.wordOf_add]
    exact Mem.valid_of_size hs (pre.vW _ (dC w' hp hj hc))
  unfold zFill
  refine Cmd.Ok.bind (drows_gen1 Cover.three le_rfl (DRows.start (x := dptr W) (u := o.zX mem f)) (fun _ _ h => h) ?_ ?_)
  · rintro ⟨t, s, c⟩ hi m1 hsz ho _
    rw [mem_rng3] at hi
    obtain ⟨⟨h1, h2⟩, ⟨_, h3⟩, _, hc⟩ := hi
    simp only at h1 h2 h3 hc
    have hj := radix_lt h3 h2
    unfold copyD
    simp only [Ptr.add_add, ha3, hc3]
    refine Does.getD (pre.vf.get hsz (by omega) hc) (Or.inl (hfb _)) (Does.setD (vD hsz (by omega) hc) ?_)
    unfold zX
    rw [if_pos (by omega), ho _ (hfb _)]
  intro m1 I1
  refine Cmd.Ok.bind (drows_gen1 (Cover.shift (k := o.m * (o.p - 1))) le_rfl I1 ?_ ?_ ?_)
  · intro s h1; simp only [false_or, Nat.mul_zero]; omega
  · rintro ⟨s, c⟩ hi m1 hsz ho _
    rw [mem_rng20] at hi
    obtain ⟨_, h3, _, hc⟩ := hi
    unfold copyD
    simp only [Ptr.add_add, ha3, hc3]
    refine Does.getD (pre.vf.get hsz (by omega) hc) (Or.inl (hfb _)) (Does.setD (vD hsz (by omega) hc) ?_)
    unfold zX
    rw [if_pos (by omega), ho _ (hfb _)]
  intro m2 I2
  refine drows_gen1 (Cover.shift (k := o.m * (o.p - 1))) le_rfl I2 ?_ ?_ ?_
  · intro s h1; simp only [false_or, Nat.mul_zero]; omega
  · rintro ⟨s, c⟩ hi m1 hsz ho _
    rw [mem_rng20] at hi
    obtain ⟨h1, h3, _, hc⟩ := hi
    simp only [Ptr.add_add, hc3]
    refine Does.setD (vD hsz (by omega) hc) ?_
    unfold zX
    rw [if_neg (by omega)]
  intro m3 I3
  have I := I3.iff (J' := fun j => j < o.m * o.p) (fun j => by simp only [false_or, Nat.mul_zero]; omega)
  refine hQ m3 (I.1.words ?_) (fun j hj c hc => I.2 j c hj hc)
  rintro y ⟨j, c, hj, hc, rfl⟩
  rw [RPlan.wordOf_add]
  exact ⟨_, dC w' hp hj hc, rfl⟩

/-- Copy and transform over the blocks. -/
theorem zR2c_ok (pre : o.Pre0 mem f F W)
    (hQ : ∀ m', mem.Upd m' (InArr W o.outputSize) → (∀ t < o.p / 2 + 1, ∀ s < o.m, ∀ c < o.C, m'.val (W + (o.C * (o.m * t + s) + c)) =
      ∑ u ∈ range o.p, (if s + o.m * u < o.L then o.X mem f c (s + o.m * u) else 0) * w o.p ((-t : ℤ) * u)) → Q () m') :
    (o.zFill f W >>= fun _ => o.rcfftp.r2c W W).Ok mem Q := by
  have hm := w'.m_pos
  refine Cmd.Ok.bind (zFill_ok w' hp pre ?_)
  intro m1 u1 e1
  obtain ⟨J, _, hpl, _⟩ := w'.rcp hp
  rw [hpl]
  have hadr : ∀ i k, o.C * o.m * i + k = o.C * (o.m * i + k / o.C) + k % o.C := fun i k => by
    have := Nat.div_add_mod k o.C
    calc o.C * o.m * i + k = o.C * o.m * i + (o.C * (k / o.C) + k % o.C) := by rw [this]
      _ = _ := by ring
  have hdiv : ∀ k < o.C * o.m, k / o.C < o.m := fun c hc => Nat.div_lt_of_lt_mul hc
  have hmod : ∀ k, k % o.C < o.C := fun c => Nat.mod_lt _ w'.C_pos
  refine RPlan.r2c_cols le_rfl (Or.inl ⟨rfl, rfl⟩) ?_ ?_ ?_
  · intro i hi k hk
    rw [hadr]
    exact Mem.valid_of_size u1.size (vC w' hp pre.vW (radix_lt (hdiv k hk) hi) (hmod k))
  · intro i hi k hk
    rw [hadr, Mem.split_valid, RPlan.wordOf_add]
    exact Mem.valid_of_size u1.size (pre.vW _ (dC w' hp (radix_lt (hdiv k hk) hi) (hmod k)))
  intro m2 u2 e2
  refine hQ m2 (u1.trans u2 (fun _ h => h) ?_) ?_
  · rintro p (⟨i, hi, k, hk, rfl⟩ | ⟨_, i, hi, k, hk, rfl⟩)
    · rw [hadr]; exact inC w' hp (radix_lt (hdiv k hk) hi) (hmod k)
    · rw [hadr, RPlan.wordOf_add]; exact ⟨_, dC w' hp (radix_lt (hdiv k hk) hi) (hmod k), rfl⟩
  · intro t ht s hs c hc
    have h := e2 (o.C * s + c) (radix_lt hc hs) t ht
    have hadr2 : ∀ t, o.C * o.m * t + (o.C * s + c) = o.C * (o.m * t + s) + c := fun t => by ring
    simp only [hadr2] at h
    rw [h]
    refine sum_congr rfl fun u hu => ?_
    have hu := mem_range.1 hu
    rw [e1 _ (radix_lt hs hu) c hc, zX_eq, Nat.add_comm (o.m * u) s]
    congr 2; ring

/-- The transforms of the rows. -/
theorem zRows_ok {sgn : ℤ} {pl : Plan} {spl : SPlan} {K A B : ℕ} {src dst : Ptr} (hpl : o.S = 1 → pl = ⟨o.m, sgn, K, 1, o.m, o.inplace⟩)
    (hspl : o.S ≠ 1 → spl = ⟨o.m, sgn, o.C, A, B, o.inplace ∧ ¬ o.C < o.S⟩) (hAB : (A = o.C ∧ B = o.S) ∨ (A = o.S ∧ B = o.C))
    (hsep : o.Sep0 src dst) (vs : ∀ j < o.m * K, ∀ c < o.C, mem.valid (src + (A * j + c))) (vd : ∀ j < o.m * K, ∀ c < o.C, mem.valid (dst + (B * j + c)))
    (hQ : ∀ m', mem.Upd m' (Rws o.C B dst (o.m * K)) → (∀ t < K, ∀ i < o.m, ∀ c < o.C, m'.val (dst + (B * (o.m * t + i) + c)) =
      ∑ s ∈ range o.m, mem.val (src + (A * (o.m * t + s) + c)) * w o.m (sgn * s * i)) → Q () m') :
    (if o.S = 1 then pl.exec src dst else seqLoop (rng 0 K) fun t => spl.exec (src + A * o.m * t) (dst + B * o.m * t)).Ok mem Q := by
  have hCS := w'.C_le_S
  have hA : o.C ≤ A := by omega
  have hB : o.C ≤ B := by omega
  by_cases hS : o.S = 1
  · have hC := w'.C_one hS
    have hA1 : A = 1 := by omega
    have hB1 : B = 1 := by omega
    subst hA1 hB1
    rw [if_pos hS, hpl hS]
    have hs : SepPtr o.inplace src dst := by
      rcases hsep with ⟨h1, _, h2⟩ | ⟨h1, h2⟩
      · exact Or.inl ⟨h1, h2⟩
      · exact Or.inr ⟨h1.resolve_right (by omega), h2⟩
    refine exec_rows hs ?_ ?_ ?_
    · intro i hi
      have := vs i hi 0 (by omega)
      rwa [Nat.one_mul, Nat.add_zero] at this
    · intro i hi
      have := vd i hi 0 (by omega)
      rwa [Nat.one_mul, Nat.add_zero] at this
    intro m' u e
    refine hQ m' (u.mono ?_) ?_
    · rintro p ⟨k, hk, i, hi, rfl⟩
      exact ⟨_, radix_lt hi hk, 0, by omega, by rw [Nat.one_mul, Nat.add_zero]⟩
    · intro d hd i hi c hc
      obtain rfl : c = 0 := by omega
      simp only [Nat.one_mul, Nat.add_zero]
      exact e d hd i hi
  · rw [if_neg hS, hspl hS]
    have hadr : ∀ X t s c : ℕ, X * o.m * t + (X * s + c) = X * (o.m * t + s) + c := fun X t s c => by ring
    have hsep' : (src = dst ∧ A = B) ∨ src.buf ≠ dst.buf := by
      rcases hsep with ⟨_, h1, h2⟩ | ⟨_, h2⟩
      · exact Or.inl ⟨h2, by omega⟩
      · exact Or.inr h2
    refine rowLoop_ok hA hB hsep' ?_ hQ
    intro t ht m1 hsz
    refine sexec_cols hA hB ?_ ?_ ?_ ?_
    · rcases hsep with ⟨h1, h2, h3⟩ | ⟨h1, h2⟩
      · refine Or.inl ⟨?_, ?_, by omega⟩
        · simp only [h1, decide_eq_true_eq]; exact ⟨trivial, by omega⟩
        · rw [h3, show A = B by omega]
      · refine Or.inr ⟨?_, by simpa using h2⟩
        rw [decide_eq_false_iff_not]
        rcases h1 with h1 | h1
        · simp [h1]
        · exact fun h => h.2 h1
    · intro i hi c hc
      rw [Ptr.add_add, hadr]; exact Mem.valid_of_size hsz (vs _ (radix_lt hi ht) c hc)
    · intro i hi c hc
      rw [Ptr.add_add, hadr]; exact Mem.valid_of_size hsz (vd _ (radix_lt hi ht) c hc)
    · intro m' u e
      simp only [Ptr.add_add, hadr] at u e
      exact ⟨u, e⟩

/-- One of the loops that combine the real values. -/
theorem pack_loop {a b k : ℕ} {z : ℕ → ℂ} {body : ℕ × ℕ → Body Unit} (hb : b ≤ o.h)
    (hd : ∀ s c, a ≤ s → s < b → c < o.C → (body (s, c)).Does mem
      [(dptr (W + (o.C * (k + s) + c)), (z s * ⟨mem.cell (dptr (W + (o.C * (k + s) + c))), mem.cell (dptr (W + (o.C * (k + (s + o.h)) + c)))⟩).re),
       (dptr (W + (o.C * (k + s) + c)) + 1, (z s * ⟨mem.cell (dptr (W + (o.C * (k + s) + c))), mem.cell (dptr (W + (o.C * (k + (s + o.h)) + c)))⟩).im)]
      (fun y => y = dptr (W + (o.C * (k + s) + c)) ∨ y = dptr (W + (o.C * (k + (s + o.h)) + c))))
    (hQ : ∀ m', mem.Upd m' (fun p => ∃ s c, a ≤ s ∧ s < b ∧ c < o.C ∧ p = W + (o.C * (k + s) + c)) →
      (∀ s c, a ≤ s → s < b → c < o.C → m'.val (W + (o.C * (k + s) + c)) =
        z s * ⟨(mem.val (W + (o.C * (k + s) + c))).re, (mem.val (W + (o.C * (k + (s + o.h)) + c))).re⟩) → Q () m') :
    (parD (rng2 a b 0 o.C) body).Ok mem Q := by
  have hcell : ∀ p, mem.cell (dptr p) = (mem.val p).re := fun p => by rw [Mem.val_cell]
  have hwd : ∀ p, wordOf (dptr p) = p := fun p => by unfold wordOf dptr; ext <;> simp
  have hd' : ∀ i ∈ rng2 a b 0 o.C, _ := fun i hi => hd i.1 i.2 (mem_rng20.1 hi).1 (mem_rng20.1 hi).2.1 (mem_rng20.1 hi).2.2.2
  have hne : ∀ j c j' c', c < o.C → c' < o.C → W + (o.C * j + c) = W + (o.C * j' + c') → j = j' ∧ c = c' := by
    intro j c j' c' hc hc' e
    rw [Ptr.add_inj] at e
    exact radix_inj hc hc' e
  refine parD_words (fun i => W + (o.C * (k + i.1) + i.2)) (fun i => z i.1 * (⟨mem.cell (dptr (W + (o.C * (k + i.1) + i.2))),
    mem.cell (dptr (W + (o.C * (k + (i.1 + o.h)) + i.2)))⟩ : ℂ)) (rng2_nodup ..) (fun i hi => (hd' i hi).good) (fun i hi => (hd' i hi).wrs) ?_ ?_ ?_
  · rintro ⟨s, c⟩ hi ⟨s', c'⟩ hi' e
    rw [mem_rng20] at hi hi'
    obtain ⟨e1, e2⟩ := hne _ _ _ _ hi.2.2.2 hi'.2.2.2 e
    simp only at e1
    rw [show s = s' by omega, e2]
  · rintro ⟨s, c⟩ hi ⟨s', c'⟩ hi' hn y hy e
    have g := mem_rng20.1 hi
    have g' := mem_rng20.1 hi'
    rcases (hd' _ hi').rds y hy with rfl | rfl
    · rw [hwd] at e
      obtain ⟨e1, e2⟩ := hne _ _ _ _ g'.2.2.2 g.2.2.2 e
      simp only at e1
      exact hn (by rw [show s = s' by omega, e2])
    · rw [hwd] at e
      obtain ⟨e1, e2⟩ := hne _ _ _ _ g'.2.2.2 g.2.2.2 e
      simp only at e1
      omega
  · intro m' u e
    refine hQ m' (u.mono ?_) ?_
    · rintro p ⟨⟨s, c⟩, hi, rfl⟩
      rw [mem_rng20] at hi
      exact ⟨s, c, hi.1, hi.2.1, hi.2.2.2, rfl⟩
    · intro s c h1 h2 h3
      have := e (s, c) (mem_rng20.2 ⟨h1, h2, Nat.zero_le _, h3⟩)
      simpa only [hcell] using this

theorem zPack_ok {p2 : ℕ} (h2p : o.p = 2 * p2) (vW : mem.block W o.outputSize)
    (hQ : ∀ m', mem.Upd m' (fun p => ∃ s c, s < o.h ∧ c < o.C ∧ p = W + (o.C * (o.m * p2 + s) + c)) →
      (∀ s c, s < o.h → c < o.C → m'.val (W + (o.C * (o.m * p2 + s) + c)) =
        w o.M (s * ((o.q / 2 : ℕ) : ℤ)) * ⟨(mem.val (W + (o.C * (o.m * p2 + s) + c))).re, (mem.val (W + (o.C * (o.m * p2 + (s + o.h)) + c))).re⟩) → Q () m') :
    (o.zPack W).Ok mem Q := by
  have hq := w'.q_ne hp
  have hq0 := w'.q_pos
  obtain ⟨hqe, hq2⟩ := w'.q_half hp (by omega)
  have hmh := w'.m_h hq hqe
  have hh := w'.h_pos hq hqe
  have hc2 : ceilquotient o.p 2 = p2 := by rw [ceil2]; omega
  have hq2' : o.q / 2 = o.n * p2 := by rw [hq2]; congr 1; omega
  have hhe : o.e - 1 = o.h := rfl
  have hrows : ∀ {m1 : Mem}, m1.size = mem.size → ∀ s c, s < o.m → c < o.C → m1.valid (W + (o.C * (o.m * p2 + s) + c)) := by
    intro m1 hs s c h1 h2
    refine Mem.valid_of_size hs (vC w' hp vW ?_ h2)
    rw [show o.p / 2 = p2 by omega, Nat.mul_succ]; omega
  have hdp : ∀ i : ℕ, dptr W + 2 * i = dptr (W + i) := fun i => (dptr_add W i).symm
  have ha1 : ∀ s c, 2 * (p2 * o.Cm) + 2 * o.C * s + 2 * c = 2 * (o.C * (o.m * p2 + s) + c) := fun s c => by rw [w'.Cm_eq]; ring
  have ha2 : ∀ s c, 2 * (p2 * o.Cm) + 2 * o.C * o.h + 2 * o.C * s + 2 * c = 2 * (o.C * (o.m * p2 + (s + o.h)) + c) := fun s c => by rw [w'.Cm_eq]; ring
  have ha3 : ∀ s c, p2 * o.Cm + o.C * s + c = o.C * (o.m * p2 + s) + c := fun s c => by rw [w'.Cm_eq]; ring
  have hb1 : ∀ c, 2 * (p2 * o.Cm) + 2 * c = 2 * (o.C * (o.m * p2 + 0) + c) := fun c => by rw [w'.Cm_eq]; ring
  have hb2 : ∀ c, 2 * (p2 * o.Cm) + 2 * o.C * o.h + 2 * c = 2 * (o.C * (o.m * p2 + (0 + o.h)) + c) := fun c => by rw [w'.Cm_eq]; ring
  have hb3 : ∀ c, p2 * o.Cm + c = o.C * (o.m * p2 + 0) + c := fun c => by rw [w'.Cm_eq]; ring
  have hix : ∀ s, o.m * o.n * p2 + s = o.m * (o.q / 2) + s := fun s => by rw [hq2']; ring
  unfold zPack
  simp only [hc2, hhe]
  rw [parD_first]
  refine Cmd.Ok.bind (pack_loop w' hp (W := W) (k := o.m * p2) (z := fun s => w o.M (s * ((o.q / 2 : ℕ) : ℤ))) hh ?_ ?_)
  · intro s c _ hs hc
    obtain rfl : s = 0 := by omega
    simp only [Ptr.add_add, hb1, hb2, hb3]
    simp only [hdp]
    refine Does.getD (Mem.split_dptr.2 (hrows rfl _ _ (by omega) hc)) (Or.inl rfl)
      (Does.getD (Mem.split_dptr.2 (hrows rfl _ _ (by omega) hc)) (Or.inr rfl) (Does.setC (hrows rfl _ _ (by omega) hc) (by simp)))
  intro m1 u1 e1
  have hne : ∀ j c j' c', c < o.C → c' < o.C → W + (o.C * j + c) = W + (o.C * j' + c') → j = j' ∧ c = c' := by
    intro j c j' c' hc hc' e
    rw [Ptr.add_inj] at e
    exact radix_inj hc hc' e
  refine pack_loop w' hp (W := W) (k := o.m * p2) (z := fun s => w o.M (s * ((o.q / 2 : ℕ) : ℤ))) le_rfl ?_ ?_
  · intro s c hs hs' hc
    simp only [Ptr.add_add, ha1, ha2, ha3, hix]
    simp only [hdp]
    refine Does.get (w'.zq_bd hq (by omega) (by omega) (by omega)) ?_
    rw [w'.zq_val hq (by omega)]
    exact Does.getD (Mem.split_dptr.2 (hrows u1.size _ _ (by omega) hc)) (Or.inl rfl)
      (Does.getD (Mem.split_dptr.2 (hrows u1.size _ _ (by omega) hc)) (Or.inr rfl) (Does.setC (hrows u1.size _ _ (by omega) hc) rfl))
  intro m2 u2 e2
  refine hQ m2 (u1.trans u2 ?_ ?_) ?_
  · rintro p ⟨s, c, h1, h2, h3, rfl⟩; exact ⟨s, c, by omega, h3, rfl⟩
  · rintro p ⟨s, c, h1, h2, h3, rfl⟩; exact ⟨s, c, by omega, h3, rfl⟩
  · intro s c hs hc
    have fr : ∀ j, o.m * p2 + 1 ≤ j → m1.val (W + (o.C * j + c)) = mem.val (W + (o.C * j + c)) := by
      intro j hj
      rw [u1.frame]
      rintro ⟨s', c', h1, h2, h3, h4⟩
      have := hne _ _ _ _ hc h3 h4
      omega
    by_cases h0 : s = 0
    · subst h0
      rw [u2.frame, e1 0 c le_rfl (by omega) hc]
      rintro ⟨s', c', h1, h2, h3, h4⟩
      have := hne _ _ _ _ hc h3 h4
      omega
    · rw [e2 s c (by omega) hs hc, fr _ (by omega), fr _ (by omega)]

theorem Sep0.shift {W F : Ptr} (h : o.Sep0 W F) {A B : ℕ} (hAB : o.C = o.S → A = B) : o.Sep0 (W + A) (F + B) := by
  rcases h with ⟨h1, h2, h3⟩ | ⟨h1, h2⟩
  · exact Or.inl ⟨h1, h2, by rw [h3, hAB h2]⟩
  · exact Or.inr ⟨h1, by simpa using h2⟩

theorem Sep0.plan {W F : Ptr} (h : o.Sep0 W F) : (decide (o.inplace = true ∧ ¬ o.C < o.S) = true ∧ W = F ∧ o.C = o.S) ∨
    (decide (o.inplace = true ∧ ¬ o.C < o.S) = false ∧ W.buf ≠ F.buf) := by
  rcases h with ⟨h1, h2, h3⟩ | ⟨h1, h2⟩
  · exact Or.inl ⟨by simp [h1, h2], h3, h2⟩
  · refine Or.inr ⟨?_, h2⟩
    rw [decide_eq_false_iff_not]
    rcases h1 with h1 | h1
    · simp [h1]
    · exact fun h => h.2 h1

/-- The residue `0`, in a form common to the two variants. -/
theorem fwdB_zero {body : ℕ × ℕ × ℕ → Body Unit} {p2 : ℕ} (hc2 : ceilquotient o.p 2 = p2)
    (hb : ∀ t s c, 1 ≤ t → t < p2 → 1 ≤ s → s < o.m → c < o.C → ∀ m1 : Mem, m1.size = mem.size →
      (body (t, s, c)).Scales m1 (W + (o.C * (o.m * t + s) + c)) (w o.M ((s : ℤ) * (o.n * (-(t : ℤ))))))
    (pre : o.Pre0 mem f F W) (hQ : ∀ m', o.FPost mem m' f F W 0 → Q () m') :
    ((o.zFill f W >>= fun _ => o.rcfftp.r2c W W) >>= fun _ => par (rng3 1 p2 1 o.m 0 o.C) body >>= fun _ =>
      (if o.S = 1 then o.fftmp2.exec W F else seqLoop (rng 0 p2) fun t => o.fftmr0.exec (W + o.Cm * t) (F + o.Sm * t)) >>= fun _ =>
      if o.p = 2 * p2 then o.zPack W >>= fun _ => o.ffthp.exec (W + p2 * o.Cm) (F + p2 * o.Sm) else pure ()).Ok mem Q := by
  have hm := w'.m_pos
  have hn := w'.n_pos
  have hq0 := w'.q_pos
  have hq := w'.q_ne hp
  have hCS := w'.C_le_S
  have hp2' : p2 = (o.p + 1) / 2 := by rw [← hc2, ceil2]
  have hp2 : p2 ≤ o.p / 2 + 1 := by omega
  have hrW : o.m * p2 ≤ o.m * (o.p / 2 + 1) := Nat.mul_le_mul_left _ hp2
  have hrF : o.m * p2 ≤ o.nrows := le_trans hrW (w'.rows_big hp)
  have vF := validW_of w' pre.vF hrF
  refine Cmd.Ok.bind (zR2c_ok w' hp pre ?_)
  intro m2 u2 e2
  refine Cmd.Ok.bind (twid_ok (U := W) (Z := fun t s => w o.M ((s : ℤ) * (o.n * (-(t : ℤ))))) le_rfl
    (fun t s c h1 ht hs hs' hc => hb t s c h1 ht hs hs' hc m2 u2.size) (fun t => by simp) (fun t ht s => by
      obtain rfl : t = 0 := by omega
      simp) ?_)
  intro m3 u3 e3 k3
  have u03 : mem.Upd m3 (InArr W o.outputSize) := u2.trans u3 (fun _ h => h) (by
    rintro p ⟨j, hj, c, hc, rfl⟩; exact inC w' hp (by omega) hc)
  have key : ∀ t < p2, ∀ s < o.m, ∀ c < o.C, m3.val (W + (o.C * (o.m * t + s) + c)) = fillv o.M o.L o.m o.p (o.X mem f c) (o.n * (-(t : ℤ))) s := by
    intro t ht s hs c hc
    rw [e3 t ht s hs c hc, e2 t (by omega) s hs c hc]
    exact inner_algZ w'.M_eq (w'.q_big hp) (by omega) (by omega) _ _ _
  simp only [w'.Cm_eq, w'.Sm_eq]
  refine Cmd.Ok.bind (zRows_ok w' hp (fun hS => by rw [(w'.fftmp2_eq hp hS).1, hc2]) (fun hS => (w'.fftmr0_eq hp (by have := w'.S_pos; omega)).1) (Or.inl ⟨rfl, rfl⟩)
    pre.sep (fun j hj c hc => Mem.valid_of_size u03.size (vC w' hp pre.vW (by omega) hc)) (fun j hj c hc => vF.get u03.size hj hc) ?_)
  intro m4 u4 e4
  have u04 : mem.Upd m4 (o.Tch F W) := u03.trans u4 (fun _ h => Or.inr h) (fun _ h => Or.inl (rws_arr w' hrF h))
  have out4 : ∀ t < p2, ∀ i < o.m, ∀ c < o.C, m4.val (F + (o.S * (o.m * t + i) + c)) = paddedDFT o.M o.L (o.X mem f c) (o.q * i - o.n * t) := by
    intro t ht i hi c hc
    rw [e4 t ht i hi c hc, show ((o.q : ℤ) * i - o.n * t) = o.q * i + o.n * (-(t : ℤ)) by ring,
      ← row_fft w'.M_eq (by omega) (by omega) w'.p_ub]
    exact sum_congr rfl fun s hs => by rw [key t ht s (mem_range.1 hs) c hc]
  by_cases hev : o.p = 2 * p2
  · rw [if_pos hev]
    obtain ⟨hqe, hq2⟩ := w'.q_half hp (by omega)
    have hmh := w'.m_h hq hqe
    have hh := w'.h_pos hq hqe
    have hq2' : o.q / 2 = o.n * p2 := by rw [hq2]; congr 1; omega
    have hpn : o.p / 2 = p2 := by omega
    have hrow1 : o.m * (o.p / 2 + 1) = o.m * p2 + o.m := by rw [hpn, Nat.mul_succ]
    -- the last row
    have W4 : ∀ s < o.m, ∀ c < o.C, m4.val (W + (o.C * (o.m * p2 + s) + c)) =
        ∑ u ∈ range o.p, (o.zX mem f (s + o.m * u) c : ℂ) * w 2 u := by
      intro s hs c hc
      rw [u4.frame, k3 _ (by omega) c hc, e2 p2 (by omega) s hs c hc]
      · refine sum_congr rfl fun u _ => ?_
        rw [zX_eq, neg_mul, w_par hev (by omega)]
      · rintro ⟨j, hj, c', hc', h⟩
        rcases pre.sep with ⟨_, h2, h3⟩ | ⟨_, h3⟩
        · rw [h3, ← h2, Ptr.add_inj] at h
          have := radix_inj hc hc' h
          omega
        · exact h3 (by simpa using congrArg Ptr.buf h)
    refine Cmd.Ok.bind (zPack_ok w' hp hev (fun i hi => Mem.valid_of_size u04.size (pre.vW i hi)) ?_)
    intro m5 u5 e5
    have u05 : mem.Upd m5 (o.Tch F W) := u04.trans u5 (fun _ h => h) (by
      rintro p ⟨s, c, hs, hc, rfl⟩; exact Or.inr (inC w' hp (by omega) hc))
    have F5 : ∀ j < o.m * p2, ∀ c < o.C, m5.val (F + (o.S * j + c)) = m4.val (F + (o.S * j + c)) := by
      intro j hj c hc
      rw [u5.frame]
      rintro ⟨s, c', hs, hc', h⟩
      rcases pre.sep with ⟨_, h2, h3⟩ | ⟨_, h3⟩
      · rw [h3, h2, Ptr.add_inj] at h
        have := radix_inj (by omega) (by omega) h
        omega
      · exact h3 (by simpa using (congrArg Ptr.buf h).symm)
    have hfill : ∀ s < o.h, ∀ c < o.C, m5.val (W + (o.C * (o.m * p2 + s) + c)) =
        fillv o.M o.L o.h (2 * o.p) (o.X mem f c) ((o.q / 2 : ℕ) : ℤ) s := by
      intro s hs c hc
      rw [e5 s c hs hc, mk_eq, W4 _ (by omega) c hc, W4 _ (by omega) c hc, real_sum, real_sum]
      simp only [zX_eq]
      refine even_alg ?_ hmh (by omega) (by omega) _ _
      rw [w'.M_eq, hmh]
      obtain ⟨k, hk⟩ : ∃ k, o.q = 2 * k := ⟨o.q / 2, by omega⟩
      rw [hk, Nat.mul_div_cancel_left _ (by omega : 0 < 2)]; ring
    have hadr : ∀ X i c : ℕ, p2 * (X * o.m) + (X * i + c) = X * (o.m * p2 + i) + c := fun X i c => by ring
    rw [(w'.ffthp_eq hp hqe).1]
    refine sexec_cols le_rfl hCS ?_ ?_ ?_ ?_
    · exact (pre.sep.shift w' hp (fun h => by rw [h])).plan w' hp
    · intro i hi c hc
      rw [Ptr.add_add, hadr]
      exact Mem.valid_of_size u05.size (vC w' hp pre.vW (by omega) hc)
    · intro i hi c hc
      rw [Ptr.add_add, hadr]
      exact (validW_of w' pre.vF (w'.rows_big hp)).get u05.size (by omega) hc
    intro m6 u6 e6
    simp only [Ptr.add_add, hadr] at u6 e6
    refine hQ m6 ⟨u05.trans u6 (fun _ h => h) ?_, ?_, padded_big hp _ _⟩
    · rintro p ⟨i, hi, c, hc, rfl⟩
      exact Or.inl (rws_arr w' (w'.rows_big hp) ⟨_, by omega, c, hc, rfl⟩)
    · intro i hi c hc
      rcases split0 w' hp hi with ⟨t, l, ht, hl, rfl⟩ | ⟨_, l, hl, hl2, rfl⟩
      · rw [freq0_row w' hp ht hl, Nat.add_comm l, u6.frame, F5 _ (radix_lt hl (by omega)) c hc, out4 t (by omega) l hl c hc]
        rintro ⟨i', hi', c', hc', h⟩
        rw [Ptr.add_inj] at h
        have h1 := radix_inj (by omega) (by omega) h
        have h2 := radix_lt hl (by omega : t < p2)
        omega
      · rw [freq0_half w' hp hl2, ← hp2', Nat.add_comm l, e6 l hl c hc,
          show (2 * (o.q : ℤ) * l + ((o.q / 2 : ℕ) : ℤ)) = ((2 * o.q : ℕ) : ℤ) * l + ((o.q / 2 : ℕ) : ℤ) by push_cast; ring,
          ← row_fft (m := o.h) (p := 2 * o.p) (q := 2 * o.q) (by rw [w'.M_eq, hmh]; ring) (by omega) (by omega)
            (le_trans w'.p_ub (le_of_eq (by rw [hmh]; ring)))]
        exact sum_congr rfl fun s hs => by rw [hfill s (mem_range.1 hs) c hc]
  · rw [if_neg hev]
    refine ⟨(), m4, rfl, hQ m4 ⟨u04, ?_, padded_big hp _ _⟩⟩
    intro i hi c hc
    rcases split0 w' hp hi with ⟨t, l, ht, hl, rfl⟩ | ⟨hpe, _⟩
    · rw [freq0_row w' hp ht hl, Nat.add_comm l, out4 t (by omega) l hl c hc]
    · omega

end
end Re
end Fftwpp
