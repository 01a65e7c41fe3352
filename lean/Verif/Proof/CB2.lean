import Verif.Proof.CF2

/-! `fftPadCentered::backward2`. -/

namespace Fftwpp
namespace Fills
variable {κ ι : Type} {m0 m : Mem} {R : κ → Prop} {dst : κ → Ptr} {T : κ → ℂ} {done : κ → Prop}

/-- One store per iteration; the reads are in other buffers or of the word to be stored. -/
theorem par1o {B : ℕ} (h : Fills m0 m R dst T done) (hB : ∀ k, (dst k).buf = B) {l : List ι} {body : ι → Body Unit} (k : ι → κ)
    (hl : l.Nodup) (hR : ∀ i ∈ l, R (k i)) (hk : ∀ i ∈ l, ∀ j ∈ l, k i = k j → i = j)
    (hg : ∀ i ∈ l, (body i).Good m)
    (hw : ∀ i ∈ l, (body i).wrs m = [(dst (k i), T (k i))])
    (hrd : ∀ i ∈ l, ∀ p ∈ (body i).rds m, p.buf ≠ B ∨ p = dst (k i))
    {Q : Unit → Mem → Prop}
    (hQ : ∀ m', Fills m0 m' R dst T (fun x => done x ∨ ∃ i ∈ l, x = k i) → Q () m') :
    (Fftwpp.par l body).Ok m Q :=
  h.par1 k hl hR hk hg hw (fun i hi p hp => (hrd i hi p hp).imp (fun h1 k _ e => h1 (by rw [e, hB])) id) hQ

/-- Two stores per iteration; the reads are in other buffers or of the words to be stored. -/
theorem par2o {B : ℕ} (h : Fills m0 m R dst T done) (hB : ∀ k, (dst k).buf = B) {l : List ι} {body : ι → Body Unit} (k k' : ι → κ)
    (hl : l.Nodup)
    (hR : ∀ i ∈ l, R (k i) ∧ R (k' i)) (hk : ∀ i ∈ l, ∀ j ∈ l, k i = k j → i = j) (hk' : ∀ i ∈ l, ∀ j ∈ l, k' i = k' j → i = j)
    (hkk : ∀ i ∈ l, ∀ j ∈ l, k i ≠ k' j)
    (hg : ∀ i ∈ l, (body i).Good m)
    (hw : ∀ i ∈ l, (body i).wrs m = [(dst (k i), T (k i)), (dst (k' i), T (k' i))])
    (hrd : ∀ i ∈ l, ∀ p ∈ (body i).rds m, p.buf ≠ B ∨ p = dst (k i) ∨ p = dst (k' i))
    {Q : Unit → Mem → Prop}
    (hQ : ∀ m', Fills m0 m' R dst T (fun x => done x ∨ ∃ i ∈ l, x = k i ∨ x = k' i) → Q () m') :
    (Fftwpp.par l body).Ok m Q :=
  h.par2 k k' hl hR hk hk' hkk hg hw (fun i hi p hp => (hrd i hi p hp).imp (fun h1 k _ e => h1 (by rw [e, hB])) id) hQ

end Fills

namespace Cent
open Finset ComplexConjugate
open Fft (kpair seqLoop_rng)
variable {o : Cent}

/-- The data hold the values `v`; nothing else changed. -/
structure AccS (o : Cent) (m1 m' : Mem) (f : Ptr) (v : ℕ → ℂ) : Prop where
  upd : m1.Upd m' (fun p => ∃ j < o.L, p = f + j)
  val : ∀ j < o.L, m'.val (f + j) = v j

theorem AccS.fills {m1 m' : Mem} {f : Ptr} {v : ℕ → ℂ} (_ : o.AccS m1 m' f v) {T : ℕ → ℂ} :
    Fills m' m' (fun j => j < o.L) (fun j => f + j) T (fun _ => False) :=
  Fills.start fun k k' _ _ e => Ptr.add_inj.1 e

theorem AccS.of {m1 m m' : Mem} {f : Ptr} {v T : ℕ → ℂ} {done : ℕ → Prop} (h : o.AccS m1 m f v)
    (hf : Fills m m' (fun j => j < o.L) (fun j => f + j) T done) (hd : ∀ j < o.L, done j) : o.AccS m1 m' f T :=
  ⟨h.upd.trans hf.upd (fun _ h => h) (fun _ h => h), fun j hj => hf.got j hj (hd j hj)⟩

theorem AccS.of_start {m m' : Mem} {f : Ptr} {T : ℕ → ℂ} {done : ℕ → Prop}
    (hf : Fills m m' (fun j => j < o.L) (fun j => f + j) T done) (hd : ∀ j < o.L, done j) : o.AccS m m' f T :=
  ⟨hf.upd, fun j hj => hf.got j hj (hd j hj)⟩

theorem AccS.congr {m1 m : Mem} {f : Ptr} {v v' : ℕ → ℂ} (h : o.AccS m1 m f v) (hv : ∀ j < o.L, v j = v' j) : o.AccS m1 m f v' :=
  ⟨h.upd, fun j hj => by rw [h.val j hj, hv j hj]⟩

theorem AccS.other {m1 m : Mem} {f : Ptr} {v : ℕ → ℂ} (h : o.AccS m1 m f v) {p : Ptr} (hp : f.buf ≠ p.buf) : m.val p = m1.val p :=
  h.upd.frame p (by rintro ⟨j, _, rfl⟩; exact hp rfl)

/-- Position in a row of datum `j` (`p=2`). -/
def pos (o : Cent) (j : ℕ) : ℕ := if o.H ≤ j then j - o.H else j + (o.m - o.H)

/-- Contribution to datum `j` of row `ρ` with residue `k`. -/
noncomputable def cb (o : Cent) (m1 : Mem) (W : Ptr) (ρ : ℕ) (k : ℤ) (j : ℕ) : ℂ :=
  w o.M (-(((j : ℤ) - o.H) * k)) * m1.val (W + (o.m * ρ + o.pos j))

theorem cb_hi {m1 : Mem} {W : Ptr} {ρ : ℕ} {k : ℤ} {s : ℕ} :
    o.cb m1 W ρ k (o.H + s) = w o.M (-(s * k)) * m1.val (W + (o.m * ρ + s)) := by
  unfold cb pos
  rw [if_pos (by omega), Nat.add_sub_cancel_left]
  congr 2; push_cast; ring

theorem cb_lo {m1 : Mem} {W : Ptr} {ρ : ℕ} {k : ℤ} {s : ℕ} (h1 : o.m - o.H ≤ s) (h2 : s < o.m) (h3 : o.H ≤ o.m) :
    o.cb m1 W ρ k (s - (o.m - o.H)) = w o.M (((o.m - s : ℕ) : ℤ) * k) * m1.val (W + (o.m * ρ + s)) := by
  unfold cb pos
  rw [if_neg (by omega), Nat.sub_add_cancel h1]
  congr 2
  have : ((s - (o.m - o.H) : ℕ) : ℤ) - o.H = -((o.m - s : ℕ) : ℤ) := by omega
  rw [this]; ring

theorem backward2Pair_ok (h : o.WF) (hp : o.p = 2) (hq : o.q ≠ 1) {f W : Ptr} {m1 mem : Mem} {r K ρ : ℕ} {v : ℕ → ℂ}
    (hacc : o.AccS m1 mem f v)
    (hb : f.buf ≠ W.buf) (hf : ∀ j < o.L, m1.valid (f + j)) (hW : ∀ i < o.m * K, m1.valid (W + i)) (hρ : ρ + 1 < K)
    (hr : 0 < r) (hrq : r < o.q) {Q : Unit → Mem → Prop}
    (hQ : ∀ m', o.AccS m1 m' f (fun j => v j + (o.cb m1 W ρ r j + o.cb m1 W (ρ + 1) (-r) j)) → Q () m') :
    (o.backward2Pair (W + o.m * ρ) f r).Ok mem Q := by
  obtain ⟨hH, g1, g2, g3, g4, g5, g6, g7⟩ := h.geo2 hp
  have hfB : ∀ k : ℕ, (f + k).buf = f.buf := fun _ => rfl
  have hG : ∀ s : ℕ, W + (o.m * ρ + o.m + s) = W + (o.m * (ρ + 1) + s) := fun s => rfl
  set T : ℕ → ℂ := fun j => v j + (o.cb m1 W ρ r j + o.cb m1 W (ρ + 1) (-r) j) with hT
  have hWv : ∀ {m' D}, Fills mem m' (fun j => j < o.L) (fun j => f + j) T D → ∀ s < o.m, m'.valid (W + (o.m * ρ + s)) ∧ m'.valid (W + (o.m * (ρ + 1) + s)) :=
    fun hm s hs => ⟨hm.valid (Mem.valid_of_size hacc.upd.size (hW _ (radix_lt hs (by omega)))),
      hm.valid (Mem.valid_of_size hacc.upd.size (hW _ (radix_lt hs (by omega))))⟩
  have hfv : ∀ {m' D}, Fills mem m' (fun j => j < o.L) (fun j => f + j) T D → ∀ j < o.L, m'.valid (f + j) :=
    fun hm j hj => hm.valid (Mem.valid_of_size hacc.upd.size (hf j hj))
  have hWm : ∀ {m' D}, Fills mem m' (fun j => j < o.L) (fun j => f + j) T D → ∀ i : ℕ, m'.val (W + i) = m1.val (W + i) :=
    fun hm i => by rw [hm.val_buf hfB (by simpa using hb.symm)]; exact hacc.other (by simpa using hb)
  have hz : ∀ s, s ≤ o.m → (o.m + 1) * r + o.m - s = (o.m + 1) * r + (o.m - s) := fun s hs => Nat.add_sub_assoc hs _
  have hsub : ∀ s : ℕ, o.m - o.H ≤ s → f - (o.m - o.H) + s = f + (s - (o.m - o.H)) := fun s hs => Ptr.sub_add hs
  have hTlo : ∀ s : ℕ, o.m - o.H ≤ s → s < o.m → T (s - (o.m - o.H)) = v (s - (o.m - o.H)) +
      (w o.M (((o.m - s : ℕ) : ℤ) * r) * m1.val (W + (o.m * ρ + s)) + conj (w o.M (((o.m - s : ℕ) : ℤ) * r)) * m1.val (W + (o.m * (ρ + 1) + s))) := by
    intro s h1 h2
    rw [hT]; simp only
    rw [cb_lo h1 h2 g3, cb_lo h1 h2 g3, w_conj]
    congr 4; ring
  have hThi : ∀ s : ℕ, T (o.H + s) = v (o.H + s) +
      (w o.M (s * r) * m1.val (W + (o.m * (ρ + 1) + s)) + conj (w o.M (s * r)) * m1.val (W + (o.m * ρ + s))) := by
    intro s
    rw [hT]; simp only
    rw [cb_hi, cb_hi, w_conj, add_comm (w _ _ * _)]
    congr 4; ring
  unfold backward2Pair
  simp only [← hH]
  have h0 : Fills mem mem (fun j => j < o.L) (fun j => f + j) T (fun _ => False) := hacc.fills
  refine Cmd.Ok.bind (h0.par1o hfB (fun s => s - (o.m - o.H)) (rng_nodup _ _) ?_ ?_ ?_ ?_ ?_ ?_)
  · intro s hs; rw [mem_rng] at hs; omega
  · intro i hi j hj e; rw [mem_rng] at hi hj; omega
  · intro s hs
    rw [mem_rng] at hs
    body_simp
    rw [hG, hz s (by omega), hsub s (by omega)]
    exact ⟨hfv h0 _ (by omega), h.zc_bd hp hr hrq (by omega), (hWv h0 s (by omega)).1, (hWv h0 s (by omega)).2, hfv h0 _ (by omega)⟩
  · intro s hs
    rw [mem_rng] at hs
    body_simp
    rw [hG, hz s (by omega), hsub s (by omega), C30_zmult2, h.zc_val hp hq (by omega), hTlo s (by omega) hs.2, hWm h0, hWm h0,
      h0.keep _ (by omega) (by simp), hacc.val _ (by omega)]
  · intro s hs; rw [mem_rng] at hs; body_simp; rw [hsub s (by omega)]
    rintro p (rfl | rfl | rfl) <;> simp [hb.symm]
  intro m2 h2
  refine Cmd.Ok.bind (h2.par2o hfB (fun s => s - (o.m - o.H)) (fun s => o.H + s) (rng_nodup _ _) ?_ ?_ ?_ ?_ ?_ ?_ ?_ ?_)
  · intro s hs; rw [mem_rng] at hs; omega
  · intro i hi j hj e; rw [mem_rng] at hi hj; omega
  · intro i hi j hj e; rw [mem_rng] at hi hj; omega
  · intro i hi j hj e; rw [mem_rng] at hi hj; omega
  · intro s hs
    rw [mem_rng] at hs
    body_simp
    rw [hG, hz s (by omega), hsub s (by omega)]
    exact ⟨(hWv h2 s (by omega)).1, (hWv h2 s (by omega)).2, h.zc_bd hp hr hrq (by omega), h.zc_bd hp hr hrq (by omega),
      hfv h2 _ (by omega), hfv h2 _ (by omega), hfv h2 _ (by omega), hfv h2 _ (by omega)⟩
  · intro s hs
    rw [mem_rng] at hs
    have hnd : ∀ j, (∃ i ∈ rng o.H o.m, j = i - (o.m - o.H)) → 2 * o.H - o.m ≤ j ∧ j < o.H := by
      rintro j ⟨i, hi, rfl⟩; rw [mem_rng] at hi; omega
    have e1 : m2.val (f + (s - (o.m - o.H))) = v (s - (o.m - o.H)) := by
      rw [h2.keep _ (by omega), hacc.val _ (by omega)]
      rintro (hx | hx)
      · exact hx
      · have := hnd _ hx; omega
    have e2 : m2.val (f + (o.H + s)) = v (o.H + s) := by
      rw [h2.keep _ (by omega), hacc.val _ (by omega)]
      rintro (hx | hx)
      · exact hx
      · have := hnd _ hx; omega
    body_simp
    rw [hG, hz s (by omega), hsub s (by omega), C30_zmult2, C30_zmult2, h.zc_val hp hq (by omega), h.zc_val hp hq (by omega),
      hTlo s (by omega) (by omega), hThi, hWm h2, hWm h2, Mem.set_val, if_neg (by rw [Ptr.add_inj]; omega), e1, e2]
  · intro s hs; rw [mem_rng] at hs; body_simp; rw [hsub s (by omega)]
    rintro p (rfl | rfl | rfl | rfl) <;> simp [hb.symm]
  intro m3 h3
  have hd3 : ∀ s < o.m - o.H, m3.val (f + (o.H + s)) = v (o.H + s) := by
    intro s hs
    rw [h3.keep _ (by omega), hacc.val _ (by omega)]
    simp only [mem_rng]
    rintro ((hx | ⟨i, hi, hx⟩) | ⟨i, hi, hx⟩)
    · exact hx
    · omega
    · omega
  refine Cmd.Ok.bind (h3.par1o hfB (fun s => o.H + s) (rng_nodup _ _) ?_ ?_ ?_ ?_ ?_ ?_)
  · intro s hs; rw [mem_rng] at hs; omega
  · intro i hi j hj e; rw [mem_rng] at hi hj; omega
  · intro s hs
    rw [mem_rng] at hs
    body_simp
    rw [hG]
    exact ⟨hfv h3 _ (by omega), h.zc_bd hp hr hrq (by omega), (hWv h3 s (by omega)).2, (hWv h3 s (by omega)).1, hfv h3 _ (by omega)⟩
  · intro s hs
    rw [mem_rng] at hs
    body_simp
    rw [hG, C30_zmult2, h.zc_val hp hq (by omega), hThi, hWm h3, hWm h3, hd3 s (by omega)]
  · intro s hs; rw [mem_rng] at hs; body_simp
    rintro p (rfl | rfl | rfl) <;> simp [hb.symm]
  intro m4 h4
  by_cases hodd : o.L - 2 * o.H ≠ 0
  · rw [if_pos hodd]
    refine h4.run [o.H + o.H] ?_ (by simp) ?_ ?_ ?_
    · intro k hk; rw [List.mem_singleton] at hk; omega
    · body_simp
      rw [hG]
      exact ⟨hfv h4 _ (by omega), h.zc_bd hp hr hrq (by omega), (hWv h4 _ (by omega)).2, (hWv h4 _ (by omega)).1, hfv h4 _ (by omega)⟩
    · have e1 : m4.val (f + (o.H + o.H)) = v (o.H + o.H) := by
        rw [h4.keep _ (by omega), hacc.val _ (by omega)]
        simp only [mem_rng]
        rintro (((hx | ⟨i, hi, hx⟩) | ⟨i, hi, hx⟩) | ⟨i, hi, hx⟩)
        · exact hx
        · omega
        · omega
        · omega
      body_simp
      rw [hG, C30_zmult2, h.zc_val hp hq (by omega), hWm h4, hWm h4, e1, List.map_singleton, hThi]
    · intro m5 h5
      refine hQ m5 (hacc.of h5 ?_)
      intro j hj
      simp only [mem_rng, List.mem_singleton]
      obtain h0 | h0 | h0 | h0 | h0 : j < 2 * o.H - o.m ∨ (2 * o.H - o.m ≤ j ∧ j < o.H) ∨ (o.H ≤ j ∧ j < o.m) ∨ (o.m ≤ j ∧ j < 2 * o.H) ∨ j = o.H + o.H := by omega
      · exact Or.inl (Or.inl (Or.inr ⟨j + (o.m - o.H), by omega, by omega⟩))
      · exact Or.inl (Or.inl (Or.inl (Or.inr ⟨j + (o.m - o.H), by omega, by omega⟩)))
      · exact Or.inl (Or.inr ⟨j - o.H, by omega, by omega⟩)
      · exact Or.inl (Or.inl (Or.inr ⟨j - o.H, by omega, by omega⟩))
      · exact Or.inr h0
  · rw [if_neg hodd]
    refine Cmd.Ok.pure (hQ m4 (hacc.of h4 ?_))
    intro j hj
    simp only [mem_rng]
    obtain h0 | h0 | h0 | h0 : j < 2 * o.H - o.m ∨ (2 * o.H - o.m ≤ j ∧ j < o.H) ∨ (o.H ≤ j ∧ j < o.m) ∨ (o.m ≤ j ∧ j < 2 * o.H) := by omega
    · exact Or.inl (Or.inr ⟨j + (o.m - o.H), by omega, by omega⟩)
    · exact Or.inl (Or.inl (Or.inr ⟨j + (o.m - o.H), by omega, by omega⟩))
    · exact Or.inr ⟨j - o.H, by omega, by omega⟩
    · exact Or.inl (Or.inr ⟨j - o.H, by omega, by omega⟩)

theorem backward2Rest_ok (h : o.WF) (hp : o.p = 2) (hq : o.q ≠ 1) {f W : Ptr} {m1 mem : Mem} {r0 dr0 K a : ℕ} {v : ℕ → ℂ}
    {k : ℕ → ℤ} (hacc : o.AccS m1 mem f v)
    (hK : K = a + if o.D = 1 then min dr0 1 else 2 * dr0)
    (hb : f.buf ≠ W.buf) (hf : ∀ j < o.L, m1.valid (f + j)) (hW : ∀ i < o.m * K, m1.valid (W + i))
    (hk : ∀ ρ, a + ρ < K → k (a + ρ) = if o.D = 1 then (r0 : ℤ) else kpair r0 ρ)
    (hr : 0 < r0) (hrq : r0 + dr0 ≤ o.q) {Q : Unit → Mem → Prop}
    (hQ : ∀ m', o.AccS m1 m' f (fun j => v j + ∑ ρ ∈ Ico a K, o.cb m1 W ρ (k ρ) j) → Q () m') :
    (o.backward2Rest (W + o.m * a) f r0 dr0).Ok mem Q := by
  obtain ⟨hH, g1, g2, g3, g4, g5, g6, g7⟩ := h.geo2 hp
  have hfB : ∀ k : ℕ, (f + k).buf = f.buf := fun _ => rfl
  unfold backward2Rest
  by_cases hD : o.D = 1
  · simp only [hD, if_true] at hK hk ⊢
    by_cases hd : 0 < dr0
    · rw [Nat.min_eq_right hd] at hK
      subst hK
      rw [if_pos hd]
      have hk0 := hk 0 (by omega)
      rw [Nat.add_zero] at hk0
      rw [Nat.Ico_succ_singleton] at hQ
      simp only [sum_singleton, hk0] at hQ
      set T : ℕ → ℂ := fun j => v j + o.cb m1 W a r0 j with hT
      have hWv : ∀ {m' D}, Fills mem m' (fun j => j < o.L) (fun j => f + j) T D → ∀ s < o.m, m'.valid (W + (o.m * a + s)) :=
        fun hm s hs => hm.valid (Mem.valid_of_size hacc.upd.size (hW _ (radix_lt hs (by omega))))
      have hfv : ∀ {m' D}, Fills mem m' (fun j => j < o.L) (fun j => f + j) T D → ∀ j < o.L, m'.valid (f + j) :=
        fun hm j hj => hm.valid (Mem.valid_of_size hacc.upd.size (hf j hj))
      have hWm : ∀ {m' D}, Fills mem m' (fun j => j < o.L) (fun j => f + j) T D → ∀ i : ℕ, m'.val (W + i) = m1.val (W + i) :=
        fun hm i => by rw [hm.val_buf hfB (by simpa using hb.symm)]; exact hacc.other (by simpa using hb)
      have hz : ∀ s, s ≤ o.m → (o.m + 1) * r0 + o.m - s = (o.m + 1) * r0 + (o.m - s) := fun s hs => Nat.add_sub_assoc hs _
      have hsub : ∀ s : ℕ, o.m - o.H ≤ s → f - (o.m - o.H) + s = f + (s - (o.m - o.H)) := fun s hs => Ptr.sub_add hs
      simp only [← hH]
      have h0 : Fills mem mem (fun j => j < o.L) (fun j => f + j) T (fun _ => False) := hacc.fills
      refine Cmd.Ok.bind (h0.par1o hfB (fun s => s - (o.m - o.H)) (rng_nodup _ _) ?_ ?_ ?_ ?_ ?_ ?_)
      · intro s hs; rw [mem_rng] at hs; omega
      · intro i hi j hj e; rw [mem_rng] at hi hj; omega
      · intro s hs
        rw [mem_rng] at hs
        body_simp
        rw [hz s (by omega), hsub s (by omega)]
        exact ⟨hfv h0 _ (by omega), h.zc_bd hp hr (by omega) (by omega), hWv h0 s (by omega), hfv h0 _ (by omega)⟩
      · intro s hs
        rw [mem_rng] at hs
        body_simp
        rw [hz s (by omega), hsub s (by omega), h.zc_val hp hq (by omega), hWm h0,
          h0.keep _ (by omega) (by simp), hacc.val _ (by omega), hT]
        simp only
        rw [cb_lo (by omega) hs.2 g3]
      · intro s hs; rw [mem_rng] at hs; body_simp; rw [hsub s (by omega)]
        rintro p (rfl | rfl) <;> simp [hb.symm]
      intro m2 h2
      refine h2.par1o hfB (fun s => o.H + s) (rng_nodup _ _) ?_ ?_ ?_ ?_ ?_ ?_
      · intro s hs; rw [mem_rng] at hs; omega
      · intro i hi j hj e; rw [mem_rng] at hi hj; omega
      · intro s hs
        rw [mem_rng] at hs
        body_simp
        exact ⟨hfv h2 _ (by omega), h.zc_bd hp hr (by omega) (by omega), hWv h2 s (by omega), hfv h2 _ (by omega)⟩
      · intro s hs
        rw [mem_rng] at hs
        have e1 : m2.val (f + (o.H + s)) = v (o.H + s) := by
          rw [h2.keep _ (by omega), hacc.val _ (by omega)]
          simp only [mem_rng]
          rintro (hx | ⟨i, hi, hx⟩)
          · exact hx
          · omega
        body_simp
        rw [h.zc_val hp hq (by omega), hWm h2, e1, hT]
        simp only
        rw [cb_hi, w_conj]
      · intro s hs; rw [mem_rng] at hs; body_simp
        rintro p (rfl | rfl) <;> simp [hb.symm]
      intro m3 h3
      refine hQ m3 (hacc.of h3 ?_)
      intro j hj
      simp only [mem_rng]
      rcases Nat.lt_or_ge j o.H with h5 | h5
      · exact Or.inl (Or.inr ⟨j + (o.m - o.H), by omega, by omega⟩)
      · exact Or.inr ⟨j - o.H, by omega, by omega⟩
    · rw [if_neg hd]
      obtain rfl : dr0 = 0 := by omega
      simp only [Nat.zero_min, Nat.add_zero] at hK
      subst hK
      refine Cmd.Ok.pure (hQ mem (hacc.congr fun j _ => ?_))
      simp
  · simp only [hD, if_false] at hK hk ⊢
    have hidx : ∀ d, W + o.m * a + 2 * o.m * d = W + o.m * (a + 2 * d) := fun d => by rw [Ptr.add_add]; congr 1; ring
    simp only [hidx]
    refine seqLoop_rng (fun d m' => o.AccS m1 m' f (fun j => v j + ∑ ρ ∈ Ico a (a + 2 * d), o.cb m1 W ρ (k ρ) j)) ?_ ?_ ?_
    · exact hacc.congr fun j _ => by simp
    · rintro d m2 hd h2
      refine backward2Pair_ok h hp hq h2 hb hf hW (by omega) (by omega) (by omega) ?_
      intro m3 h3
      refine h3.congr fun j _ => ?_
      rw [show a + 2 * (d + 1) = a + 2 * d + 1 + 1 by ring, sum_Ico_succ_top (by omega), sum_Ico_succ_top (by omega),
        hk (2 * d) (by omega), show a + 2 * d + 1 = a + (2 * d + 1) by ring, hk (2 * d + 1) (by omega)]
      have e1 : kpair r0 (2 * d) = ((r0 + d : ℕ) : ℤ) := by simp [kpair]
      have e2 : kpair r0 (2 * d + 1) = -((r0 + d : ℕ) : ℤ) := by
        unfold kpair; rw [if_neg (by omega), show (2 * d + 1) / 2 = d by omega]
      rw [e1, e2]
      ring
    · intro m2 h2
      subst hK
      exact hQ m2 h2

/-- The inverse transform of the rows begins `backward`. -/
theorem back_rows (h : o.WF) (hq : o.q ≠ 1) (hS : o.S = 1) {mem : Mem} {f F W : Ptr} {r : ℕ}
    (pre : o.Pre mem f F W) {Q : Unit → Mem → Prop}
    (hQ : ∀ m1, mem.Upd m1 (o.toFft.Reg W (o.P * o.D)) →
      (∀ ρ < o.rows r, ∀ s < o.m, m1.val (W + (o.m * ρ + s)) = ∑ i ∈ range o.m, mem.val (F + (o.m * ρ + i)) * w o.m (-1 * i * s)) → Q () m1) :
    ((if 0 < r ∨ o.D0 = o.D then o.ifftm else o.ifftm0).exec F W).Ok mem Q := by
  rw [(h.plan_rows hq hS r).2]
  have hv : ∀ p : Ptr, (∀ i < o.m * (o.P * o.D), ∀ c < o.C, mem.valid (p + (o.S * i + c))) →
      ∀ i < o.m * o.rows r, mem.valid (p + i) := by
    intro p hp i hi
    have := hp i (lt_of_lt_of_le hi (Nat.mul_le_mul_left _ (h.rows_le r))) 0 h.C_pos
    rwa [hS, Nat.one_mul, Nat.add_zero] at this
  refine exec_rows (W := F) (F := W) ?_ (hv F pre.vF) (hv W pre.vW) ?_
  · exact pre.sep.imp (fun h => ⟨h.1, h.2.symm⟩) (fun h => ⟨h.1, h.2.symm⟩)
  intro m' u' e'
  refine hQ m' (u'.mono ?_) e'
  rintro p ⟨ρ, hρ, s, hs, rfl⟩
  exact ⟨o.m * ρ + s, radix_lt hs (lt_of_lt_of_le hρ (h.rows_le r)), 0, h.C_pos, by rw [hS, Nat.one_mul, Nat.add_zero]⟩

/-- The accumulated contributions give the result (`p=2`). -/
theorem finish_back2 (h : o.WF) (hp : o.p = 2) (hS : o.S = 1) {mem m1 m' : Mem} {f F W : Ptr} {r : ℕ}
    (u1 : mem.Upd m1 (o.toFft.Reg W (o.P * o.D)))
    (hin : ∀ ρ < o.rows r, ∀ s < o.m, m1.val (W + (o.m * ρ + s)) = ∑ i ∈ range o.m, mem.val (F + (o.m * ρ + i)) * w o.m (-1 * i * s))
    (hacc : o.AccS m1 m' f (fun j => (if r = 0 then 0 else mem.val (f + j)) + ∑ ρ ∈ range (o.rows r), o.cb m1 W ρ (o.res r ρ) j)) :
    o.BwdPost mem m' F f W r := by
  obtain ⟨hH, g1, g2, g3, g4, g5, g6, g7⟩ := h.geo2 hp
  refine ⟨u1.trans hacc.upd (fun p hp => Or.inr (Or.inr hp)) ?_, ?_⟩
  · rintro p ⟨j, hj, rfl⟩
    exact Or.inl ⟨j, hj, 0, h.C_pos, by rw [hS, Nat.one_mul, Nat.add_zero]⟩
  · intro j hj c hc
    obtain rfl : c = 0 := by have := h.C_one hS; omega
    rw [hS]
    simp only [Nat.one_mul, Nat.add_zero]
    rw [hacc.val j hj]
    congr 1
    refine sum_congr rfl fun ρ hρ => ?_
    have hps : o.pos j < o.m := by unfold pos; split_ifs <;> omega
    unfold cb
    rw [hin ρ (mem_range.1 hρ) _ hps]
    refine row_backc h.M_eq (by have := h.q_pos; omega) (fun i => mem.val (F + (o.m * ρ + i))) _ _ _ ?_
    unfold pos
    split_ifs with h1
    · rw [Nat.cast_sub h1, sub_self]; exact dvd_zero _
    · exact ⟨-1, by rw [Nat.cast_add, Nat.cast_sub g3]; ring⟩

theorem backward2_ok (h : o.WF) (hp : o.p = 2) (hq : o.q ≠ 1) (hS : o.S = 1) {f F W : Ptr} {mem : Mem} {r : ℕ}
    {W? : Option Ptr} (hW : W?.getD F = W) (pre : o.Pre mem f F W) (hv : o.Visit r) :
    (o.backward2 F f r W?).Ok mem (fun _ m' => o.BwdPost mem m' F f W r) := by
  obtain ⟨hH, g1, g2, g3, g4, g5, g6, g7⟩ := h.geo2 hp
  have hm := h.m_pos
  have hP := h.P_one hp
  have hqn := h.q_n2 hp
  have hb := pre.fW
  have hfB : ∀ k : ℕ, (f + k).buf = f.buf := fun _ => rfl
  have hsub : ∀ s : ℕ, o.m - o.H ≤ s → f - (o.m - o.H) + s = f + (s - (o.m - o.H)) := fun s hs => Ptr.sub_add hs
  unfold backward2
  simp only [hW]
  refine Cmd.Ok.bind (back_rows h hq hS (r := r) pre ?_)
  intro m1 u1 hin
  have vf : ∀ j < o.L, m1.valid (f + j) := fun j hj => by
    have := pre.vf j hj 0 h.C_pos; rw [hS, Nat.one_mul, Nat.add_zero] at this
    exact Mem.valid_of_size u1.size this
  have vW : ∀ i < o.m * o.rows r, m1.valid (W + i) := fun i hi => by
    have := pre.vW i (lt_of_lt_of_le hi (Nat.mul_le_mul_left _ (h.rows_le r))) 0 h.C_pos
    rw [hS, Nat.one_mul, Nat.add_zero] at this
    exact Mem.valid_of_size u1.size this
  have hf1 : ∀ j : ℕ, m1.val (f + j) = mem.val (f + j) := fun j => u1.frame _ (by
    rintro ⟨_, _, _, _, h3⟩; exact hb (by simpa using congrArg Ptr.buf h3))
  have hWm : ∀ {m' T D}, Fills m1 m' (fun j => j < o.L) (fun j => f + j) T D → ∀ i : ℕ, m'.val (W + i) = m1.val (W + i) :=
    fun hm i => hm.val_buf hfB (by simpa using hb.symm)
  by_cases hr : r = 0
  · subst hr
    rw [if_pos rfl]
    simp only [← hH]
    by_cases hc : o.D = 1 ∨ 2 * (o.q / 2) < o.q
    · rw [if_pos hc]
      obtain ⟨b1, b2, b3, b4⟩ := h.block0_odd (by rwa [hqn] at hc)
      have hK : 0 < o.rows 0 := by rw [h.rows2 hp]; omega
      have vW0 : ∀ s < o.m, m1.valid (W + s) := fun s hs => vW s (by have := radix_lt hs hK; simpa using this)
      have hr0 : o.res 0 0 = 0 := by rw [h.res2 hp, b2]
      have h0 : Fills m1 m1 (fun j => j < o.L) (fun j => f + j) (fun j => o.cb m1 W 0 (o.res 0 0) j) (fun _ => False) :=
        Fills.start fun k k' _ _ e => Ptr.add_inj.1 e
      refine Cmd.Ok.bind (h0.par1f hfB (fun s => s - (o.m - o.H)) (rng_nodup _ _) ?_ ?_ ?_ ?_ ?_ ?_)
      · intro s hs; rw [mem_rng] at hs; omega
      · intro i hi j hj e; rw [mem_rng] at hi hj; omega
      · intro s hs
        rw [mem_rng] at hs
        body_simp
        rw [hsub s (by omega)]
        exact ⟨vW0 s (by omega), vf _ (by omega)⟩
      · intro s hs
        rw [mem_rng] at hs
        body_simp
        rw [hsub s (by omega), cb_lo (by omega) hs.2 g3, hr0]; simp
      · intro s hs; body_simp; simp [hb.symm]
      intro m2 h2
      refine Cmd.Ok.bind (h2.par1f hfB (fun s => o.H + s) (rng_nodup _ _) ?_ ?_ ?_ ?_ ?_ ?_)
      · intro s hs; rw [mem_rng] at hs; omega
      · intro i hi j hj e; rw [mem_rng] at hi hj; omega
      · intro s hs
        rw [mem_rng] at hs
        body_simp
        exact ⟨h2.valid (vW0 s (by omega)), h2.valid (vf _ (by omega))⟩
      · intro s hs
        rw [mem_rng] at hs
        body_simp
        rw [cb_hi, hr0, hWm h2]; simp
      · intro s hs; body_simp; simp [hb.symm]
      intro m3 h3
      have hacc := AccS.of_start h3 (by
        intro j hj
        simp only [mem_rng]
        rcases Nat.lt_or_ge j o.H with h5 | h5
        · exact Or.inl (Or.inr ⟨j + (o.m - o.H), by omega, by omega⟩)
        · exact Or.inr ⟨j - o.H, by omega, by omega⟩)
      have hW1 : W + 1 * o.m = W + o.m * 1 := by rw [Nat.mul_comm]
      rw [hW1]
      refine backward2Rest_ok h hp hq hacc (k := o.res 0) (K := o.rows 0) ?_ hb vf vW ?_ (by omega) (by omega) ?_
      · rw [h.rows2 hp, b1]
      · intro ρ hρ
        rw [h.res2 hp]
        rw [h.rows2 hp, b1] at hρ
        split_ifs at hρ ⊢ with hD
        · rw [h.D0_eq_one hD] at hρ; simp at hρ
        · exact b4 ρ hD
      intro m4 h4
      refine finish_back2 h hp hS u1 hin (h4.congr fun j _ => ?_)
      rw [if_pos rfl, zero_add, ← sum_range_add_sum_Ico _ (by omega : 1 ≤ o.rows 0), sum_range_one]
    · rw [if_neg hc]
      obtain ⟨b1, b2, b3, b4, b5⟩ := h.block0_even (by rwa [hqn] at hc)
      rw [← hqn] at b3
      have hK : 1 < o.rows 0 := by rw [h.rows2 hp]; omega
      have hq2 : o.q = 2 * (o.q / 2) := by omega
      have vW0 : ∀ s < o.m, m1.valid (W + s) ∧ m1.valid (W + (o.m + s)) := fun s hs =>
        ⟨vW s (by have := radix_lt hs (Nat.lt_of_succ_lt hK); simpa using this), vW _ (by have := radix_lt hs hK; simpa using this)⟩
      have hr0 : o.res 0 0 = 0 := by rw [h.res2 hp, b2]
      have hr1 : o.res 0 1 = (o.q / 2 : ℕ) := by rw [h.res2 hp, b3]
      have hz : ∀ s, s ≤ o.m → (o.m + 1) * (o.q / 2) + o.m - s = (o.m + 1) * (o.q / 2) + (o.m - s) := fun s hs => Nat.add_sub_assoc hs _
      have h0 : Fills m1 m1 (fun j => j < o.L) (fun j => f + j) (fun j => o.cb m1 W 0 (o.res 0 0) j + o.cb m1 W 1 (o.res 0 1) j) (fun _ => False) :=
        Fills.start fun k k' _ _ e => Ptr.add_inj.1 e
      refine Cmd.Ok.bind (h0.par1f hfB (fun s => s - (o.m - o.H)) (rng_nodup _ _) ?_ ?_ ?_ ?_ ?_ ?_)
      · intro s hs; rw [mem_rng] at hs; omega
      · intro i hi j hj e; rw [mem_rng] at hi hj; omega
      · intro s hs
        rw [mem_rng] at hs
        body_simp
        rw [hsub s (by omega), hz s (by omega)]
        exact ⟨(vW0 s (by omega)).1, h.zc_bd hp (by omega) (by omega) (by omega), (vW0 s (by omega)).2, vf _ (by omega)⟩
      · intro s hs
        rw [mem_rng] at hs
        body_simp
        rw [hsub s (by omega), cb_lo (by omega) hs.2 g3, cb_lo (by omega) hs.2 g3, hr0, hr1, hz s (by omega), h.zc_val hp hq (by omega)]; simp
      · intro s hs; body_simp; simp [hb.symm]
      intro m2 h2
      refine Cmd.Ok.bind (h2.par1f hfB (fun s => o.H + s) (rng_nodup _ _) ?_ ?_ ?_ ?_ ?_ ?_)
      · intro s hs; rw [mem_rng] at hs; omega
      · intro i hi j hj e; rw [mem_rng] at hi hj; omega
      · intro s hs
        rw [mem_rng] at hs
        body_simp
        exact ⟨h2.valid (vW0 s (by omega)).1, h.zc_bd hp (by omega) (by omega) (by omega), h2.valid (vW0 s (by omega)).2, h2.valid (vf _ (by omega))⟩
      · intro s hs
        rw [mem_rng] at hs
        body_simp
        rw [cb_hi, cb_hi, hr0, hr1, hWm h2, hWm h2, h.zc_val hp hq (by omega), w_conj]; simp
      · intro s hs; body_simp; simp [hb.symm]
      intro m3 h3
      have hacc := AccS.of_start h3 (by
        intro j hj
        simp only [mem_rng]
        rcases Nat.lt_or_ge j o.H with h5 | h5
        · exact Or.inl (Or.inr ⟨j + (o.m - o.H), by omega, by omega⟩)
        · exact Or.inr ⟨j - o.H, by omega, by omega⟩)
      have hW1 : W + 2 * o.m = W + o.m * 2 := by rw [Nat.mul_comm]
      rw [hW1]
      have hD1 : o.D ≠ 1 := by omega
      refine backward2Rest_ok h hp hq hacc (k := o.res 0) (K := o.rows 0) ?_ hb vf vW ?_ (by omega) (by omega) ?_
      · rw [h.rows2 hp, b1, if_neg hD1]
      · intro ρ hρ
        rw [h.res2 hp, if_neg hD1]
        exact b5 ρ
      intro m4 h4
      refine finish_back2 h hp hS u1 hin (h4.congr fun j _ => ?_)
      rw [if_pos rfl, zero_add, ← sum_range_add_sum_Ico _ (by omega : 2 ≤ o.rows 0), sum_range_succ, sum_range_one]
  · rw [if_neg hr]
    obtain ⟨b1, b2, b3⟩ := h.block_pos hv (by omega)
    have hacc : o.AccS m1 m1 f (fun j => m1.val (f + j)) := ⟨Mem.Upd.refl _ _, fun _ _ => rfl⟩
    have := backward2Rest_ok (a := 0) h hp hq hacc (k := o.res r) (K := o.rows r) (dr0 := o.dr) (r0 := r) (by rw [h.rows2 hp, b1, Nat.zero_add]) hb vf vW
      (by
        intro ρ hρ
        rw [h.res2 hp, Nat.zero_add]
        exact b3 ρ (by rw [h.rows2 hp] at hρ; omega)) (by omega) (by omega)
      (Q := fun _ m' => o.BwdPost mem m' F f W r)
      (fun m' h1 => finish_back2 h hp hS u1 hin (h1.congr fun j _ => by rw [if_neg hr, hf1, Nat.Ico_zero_eq_range]))
    rwa [Nat.mul_zero, Ptr.add_zero] at this

end Cent
end Fftwpp
