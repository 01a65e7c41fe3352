import Verif.Model.RBatch
import Verif.Proof.Rcfft
import Verif.Proof.RDft3
import Verif.Props.Batch

/-!
# Batched transforms of real data: lemmas for C61
-/

namespace Fftwpp
open Finset

theorem w_one_left (k : ℤ) : w 1 k = 1 := by
  unfold w
  rw [Complex.exp_eq_one_iff]
  exact ⟨k, by push_cast; ring⟩

theorem rdft3_one (n : ℕ) (G : ℕ → ℝ) (k : ℕ) : rdft3 1 1 n 0 0 (fun _ _ k => G k) 0 0 k = rdft1 n G k := by
  unfold rdft3 rdft1
  simp

theorem irdft3_one (n : ℕ) (F : ℕ → ℂ) (k : ℕ) : irdft3 1 1 n 0 0 (fun _ _ k => F k) 0 0 k = irdft1 n F k := by
  unfold irdft3 irdft1
  simp

theorem hermSpec3_one {n : ℕ} {F : ℕ → ℂ} : HermSpec3 1 1 n (fun _ _ k => F k) ↔ HermSpec1 n F :=
  ⟨fun h k hk => h 0 (by omega) 0 (by omega) k hk, fun h _ _ _ _ k hk => h k hk⟩

theorem roundtrip_real1 {n : ℕ} (hn : 0 < n) (G : ℕ → ℝ) {k : ℕ} (hk : k < n) : (irdft1 n (rdft1 n G) k).re / (n : ℝ) = G k := by
  have h := roundtrip_real3 (X := 1) (Y := 1) Nat.one_pos Nat.one_pos hn (fun _ _ k => G k) (i := 0) (j := 0) Nat.one_pos Nat.one_pos hk
  have e : irdft3 1 1 n 0 0 (rdft3 1 1 n 0 0 fun _ _ k => G k) 0 0 k = irdft1 n (rdft1 n G) k := by
    rw [← irdft3_one]
    refine RFft.irdft3_congr (fun i hi j hj k hk => ?_) _ _ _
    obtain rfl : i = 0 := by omega
    obtain rfl : j = 0 := by omega
    exact rdft3_one n G k
  rw [e] at h
  simpa using h

theorem rdft1_herm (n : ℕ) (G : ℕ → ℝ) : HermSpec1 n (rdft1 n G) := by
  have h := rdft3_herm (X := 1) (Y := 1) (Z := n) (x0 := 0) (y0 := 0) (by simp) (by simp) (fun _ _ k => G k)
  intro k hk
  have := h 0 (by omega) 0 (by omega) k hk
  rw [rdft3_one, rdft3_one] at this
  exact this

theorem irdft1_im {n : ℕ} {F : ℕ → ℂ} (h : HermSpec1 n F) (k : ℕ) : (irdft1 n F k).im = 0 := by
  rw [← irdft3_one]
  exact irdft3_im (hermSpec3_one.2 h) 0 0 k

namespace RBatch
variable {o : RBatch}

/-- Vector `v` has the values `G`. -/
def RealAt (o : RBatch) (G : ℕ → ℝ) (f : Ptr) (v : ℕ) (m : Mem) : Prop := ∀ k < o.nx, m.dbl1 (f + (v * o.rd + k * o.rs : ℕ)) = G k

/-- Spectrum `v` has the values `F k`, `0 ≤ k ≤ nx/2`. -/
def SpecAt (o : RBatch) (F : ℕ → ℂ) (g : Ptr) (v : ℕ) (m : Mem) : Prop :=
  ∀ k < o.nx / 2 + 1, m.cplx (g + ((v * o.cd + k * o.cs) * 2 : ℕ)) = F k

/-- Different real values are different words. -/
def DistinctR (o : RBatch) : Prop :=
  ∀ v < o.M, ∀ k < o.nx, ∀ v' < o.M, ∀ k' < o.nx, v * o.rd + k * o.rs = v' * o.rd + k' * o.rs → v = v' ∧ k = k'
/-- Different complex values are different words. -/
def DistinctC (o : RBatch) : Prop :=
  ∀ v < o.M, ∀ k < o.nxp, ∀ v' < o.M, ∀ k' < o.nxp, v * o.cd + k * o.cs = v' * o.cd + k' * o.cs → v = v' ∧ k = k'
/-- No word belongs to a vector and to the spectrum of another one. -/
def Indep (o : RBatch) (f g : Ptr) : Prop := ∀ v < o.M, ∀ v' < o.M, v ≠ v' → ∀ p, o.IsR f v p → o.IsC g v' p → False

theorem caddr_one (g : Ptr) (v k : ℕ) : o.caddr g v k 0 + 1 = o.caddr g v k 1 := by unfold caddr; rw [Ptr.add_add]

theorem caddr_inj (h : o.DistinctC) {g : Ptr} {v k c v' k' c' : ℕ} (hv : v < o.M) (hv' : v' < o.M) (hk : k < o.nxp) (hk' : k' < o.nxp) (hc : c < 2) (hc' : c' < 2)
    (e : o.caddr g v k c = o.caddr g v' k' c') : v = v' ∧ k = k' ∧ c = c' := by
  obtain ⟨h1, h2⟩ := RFft.at_inj hc hc' (Ptr.add_inj.1 e)
  obtain ⟨h3, h4⟩ := h v hv k hk v' hv' k' hk' h1
  exact ⟨h3, h4, h2⟩

theorem raddr_inj (h : o.DistinctR) {f : Ptr} {v k v' k' : ℕ} (hv : v < o.M) (hv' : v' < o.M) (hk : k < o.nx) (hk' : k' < o.nx)
    (e : o.raddr f v k = o.raddr f v' k') : v = v' ∧ k = k' := h v hv k hk v' hv' k' hk' (Ptr.add_inj.1 e)

theorem rdft1_congr {n : ℕ} {G G' : ℕ → ℝ} (h : ∀ k < n, G k = G' k) (k : ℕ) : rdft1 n G k = rdft1 n G' k := by
  unfold rdft1
  refine sum_congr rfl fun j hj => ?_
  rw [h j (mem_range.1 hj)]

theorem irdft1_congr {n : ℕ} {F F' : ℕ → ℂ} (h : ∀ k < n, F k = F' k) (k : ℕ) : irdft1 n F k = irdft1 n F' k := by
  unfold irdft1
  refine sum_congr rfl fun j hj => ?_
  rw [h j (mem_range.1 hj)]

theorem r2c_ok {f g : Ptr} {m : Mem} (hb : o.InBounds f g m) (hd : o.DistinctC) {G : ℕ → ℕ → ℝ} (hG : ∀ v < o.M, o.RealAt (G v) f v m) :
    (o.r2c f g).Ok m fun _ m' => m'.size = m.size ∧ (∀ v < o.M, o.SpecAt (rdft1 o.nx (G v)) g v m') ∧
      ∀ p, (∀ v < o.M, ¬ o.IsC g v p) → m'.val p = m.val p := by
  refine ⟨(), _, if_pos hb, rfl, ?_, ?_⟩
  · intro v hv k hk
    have hin : ∀ c < 2, ∃ x : ℕ × ℕ × ℕ, x.1 < o.M ∧ x.2.1 < o.nxp ∧ x.2.2 < 2 ∧ o.caddr g v k c = o.caddr g x.1 x.2.1 x.2.2 :=
      fun c hc => ⟨(v, k, c), hv, hk, hc, rfl⟩
    have key : ∀ c < 2, ∀ hh : ∃ x : ℕ × ℕ × ℕ, x.1 < o.M ∧ x.2.1 < o.nxp ∧ x.2.2 < 2 ∧ o.caddr g v k c = o.caddr g x.1 x.2.1 x.2.2, hh.choose = (v, k, c) := by
      intro c hc hh
      obtain ⟨h1, h2, h3, h4⟩ := hh.choose_spec
      obtain ⟨e1, e2, e3⟩ := caddr_inj hd hv h1 hk h2 hc h3 h4
      exact Prod.ext e1.symm (Prod.ext e2.symm e3.symm)
    have e0 : (g + ((v * o.cd + k * o.cs) * 2 : ℕ)) = o.caddr g v k 0 := rfl
    have hz : ∀ j, rdft1 o.nx (fun k => m.dbl1 (o.raddr f v k)) j = rdft1 o.nx (G v) j := rdft1_congr (hG v hv)
    rw [e0]
    unfold Mem.cplx Mem.dbl1
    rw [caddr_one]
    simp only [dif_pos (hin 0 (by omega)), dif_pos (hin 1 (by omega)), key 0 (by omega) (hin 0 (by omega)), key 1 (by omega) (hin 1 (by omega))]
    have := hz k
    unfold Mem.dbl1 at this
    simp [this]
  · intro p hp
    have : ¬ ∃ x : ℕ × ℕ × ℕ, x.1 < o.M ∧ x.2.1 < o.nxp ∧ x.2.2 < 2 ∧ p = o.caddr g x.1 x.2.1 x.2.2 :=
      fun ⟨x, h1, h2, h3, h4⟩ => hp x.1 h1 ⟨x.2, h2, h3, h4⟩
    simp only [dif_neg this]

theorem full_eq {g : Ptr} {m : Mem} {v : ℕ} {F : ℕ → ℂ} (hF : HermSpec1 o.nx F) (hS : o.SpecAt F g v m) {k : ℕ} (hk : k < o.nx) :
    o.full g m v k = F k := by
  unfold full
  split_ifs with h
  · exact hS k h
  · have hk2 : o.nx - k < o.nxp := by unfold nxp at h ⊢; omega
    have := hS _ hk2
    unfold caddr
    rw [show ((v * o.cd + (o.nx - k) * o.cs) * 2 + 0) = (v * o.cd + (o.nx - k) * o.cs) * 2 from rfl, this]
    have h3 := hF k hk
    have hk0 : 0 < k := by unfold nxp at h; omega
    rw [Nat.mod_eq_of_lt (show o.nx - k < o.nx by omega)] at h3
    rw [h3, Complex.conj_conj]

theorem full_herm {g : Ptr} {m : Mem} {v : ℕ} {F : ℕ → ℂ} (hF : HermSpec1 o.nx F) (hS : o.SpecAt F g v m) : HermSpec1 o.nx (o.full g m v) := by
  intro k hk
  rw [full_eq hF hS (Nat.mod_lt _ (by omega)), full_eq hF hS hk]
  exact hF k hk

theorem c2r_ok {f g : Ptr} {m : Mem} (hb : o.InBounds f g m) (hd : o.DistinctR) {F : ℕ → ℕ → ℂ} (hF : ∀ v < o.M, HermSpec1 o.nx (F v))
    (hS : ∀ v < o.M, o.SpecAt (F v) g v m) :
    (o.c2r g f).Ok m fun _ m' => m'.size = m.size ∧ (∀ v < o.M, o.RealAt (fun k => (irdft1 o.nx (F v) k).re) f v m') ∧
      ∀ p, (∀ v < o.M, ¬ (o.IsR f v p ∨ o.IsC g v p)) → m'.val p = m.val p := by
  refine ⟨(), _, if_pos hb, rfl, ?_, ?_⟩
  · intro v hv k hk
    have hin : ∃ x : ℕ × ℕ, x.1 < o.M ∧ x.2 < o.nx ∧ o.raddr f v k = o.raddr f x.1 x.2 := ⟨(v, k), hv, hk, rfl⟩
    have key : hin.choose = (v, k) := by
      obtain ⟨h1, h2, h3⟩ := hin.choose_spec
      obtain ⟨e1, e2⟩ := raddr_inj hd hv h1 hk h2 h3
      exact Prod.ext e1.symm e2.symm
    have e0 : (f + (v * o.rd + k * o.rs : ℕ)) = o.raddr f v k := rfl
    rw [e0]
    unfold Mem.dbl1
    have hh : HermSpec1 o.nx (o.full g m hin.choose.1) := by rw [key]; exact full_herm (hF v hv) (hS v hv)
    simp only [dif_pos hin, if_pos hh, key]
    rw [Complex.ofReal_re, irdft1_congr fun k hk => full_eq (hF v hv) (hS v hv) hk]
  · intro p hp
    have h1 : ¬ ∃ x : ℕ × ℕ, x.1 < o.M ∧ x.2 < o.nx ∧ p = o.raddr f x.1 x.2 := fun ⟨x, h1, h2, h3⟩ => hp x.1 h1 (Or.inl ⟨x.2, h2, h3⟩)
    have h2 : ¬ ∃ v < o.M, o.IsC g v p := fun ⟨v, hv, h⟩ => hp v hv (Or.inr h)
    simp only [dif_neg h1, if_neg h2]

/-- A batch split in blocks, abstractly: block `i` maps `Pre v` to `Post v` for its own numbers `v` and writes words `W v` of these only. -/
theorem blocks_ok {M T : ℕ} (hT : 0 < T) {order : List ℕ} (ho : order.Perm (List.range T)) {step : ℕ → Cmd Unit} {Pre Post : ℕ → Mem → Prop}
    {R S W : ℕ → Ptr → Prop} {m : Mem}
    (pre : ∀ v < M, ∀ m1 m2 : Mem, (∀ p, R v p → m2.val p = m1.val p) → Pre v m1 → Pre v m2)
    (post : ∀ v < M, ∀ m1 m2 : Mem, (∀ p, S v p → m2.val p = m1.val p) → Post v m1 → Post v m2)
    (disj : ∀ u < M, ∀ v < M, u ≠ v → ∀ p, W u p → ¬ R v p ∧ ¬ S v p)
    (h : ∀ i < T, ∀ m1 : Mem, m1.size = m.size → (∀ l < blockCount M T i, Pre (blockStart M T i + l) m1) →
      (step i).Ok m1 fun _ m' => m'.size = m1.size ∧ (∀ l < blockCount M T i, Post (blockStart M T i + l) m') ∧
        ∀ p, (∀ l < blockCount M T i, ¬ W (blockStart M T i + l) p) → m'.val p = m1.val p)
    (h0 : ∀ v < M, Pre v m) :
    (seqLoop order step : Cmd Unit).Ok m fun _ m' => m'.size = m.size ∧ (∀ v < M, Post v m') ∧ ∀ p, (∀ v < M, ¬ W v p) → m'.val p = m.val p := by
  have loop : ∀ (l : List ℕ) (m1 : Mem) (D : ℕ → Prop), l.Nodup → (∀ i ∈ l, i < T) → (∀ i ∈ l, ¬ D i) → m1.size = m.size →
      (∀ i < T, D i → ∀ k < blockCount M T i, Post (blockStart M T i + k) m1) → (∀ i < T, ¬ D i → ∀ k < blockCount M T i, Pre (blockStart M T i + k) m1) →
      (∀ p, (∀ v < M, ¬ W v p) → m1.val p = m.val p) →
      (seqLoop l step : Cmd Unit).Ok m1 fun _ m' => m'.size = m.size ∧ (∀ i < T, D i ∨ i ∈ l → ∀ k < blockCount M T i, Post (blockStart M T i + k) m') ∧
        ∀ p, (∀ v < M, ¬ W v p) → m'.val p = m.val p := by
    intro l
    induction l with
    | nil =>
      intro m1 D _ _ _ s p1 _ fr
      exact ⟨(), m1, rfl, s, fun i hi hd => p1 i hi (hd.resolve_right (by simp)), fr⟩
    | cons i l ih =>
      intro m1 D hnd hlt hD s p1 p2 fr
      have hi : i < T := hlt i (by simp)
      have hs : ∀ k < blockCount M T i, blockStart M T i + k < M := fun k hk => block_le hT hi hk
      obtain ⟨⟨⟩, m2, e2, s2, po2, f2⟩ := h i hi m1 s (p2 i hi (hD i (by simp)))
      have other : ∀ j < T, j ≠ i → ∀ k < blockCount M T j, ∀ p, (R (blockStart M T j + k) p ∨ S (blockStart M T j + k) p) → m2.val p = m1.val p := by
        intro j hj hji k hk p hp
        refine f2 p fun k' hk' hw => ?_
        have := disj _ (hs k' hk') _ (block_le hT hj hk) (block_disjoint hT hi hj (Ne.symm hji) hk' hk) p hw
        exact hp.elim this.1 this.2
      obtain ⟨⟨⟩, m3, e3, s3, po3, f3⟩ := ih m2 (fun x => D x ∨ x = i) (List.nodup_cons.1 hnd).2 (fun x hx => hlt x (List.mem_cons_of_mem _ hx))
        (by
          rintro x hx (h' | rfl)
          · exact hD x (List.mem_cons_of_mem _ hx) h'
          · exact (List.nodup_cons.1 hnd).1 hx)
        (s2.trans s)
        (by
          rintro j hj (hd | rfl) k hk
          · have hji : j ≠ i := by rintro rfl; exact hD j (by simp) hd
            exact post _ (block_le hT hj hk) m1 m2 (fun p hp => other j hj hji k hk p (Or.inr hp)) (p1 j hj hd k hk)
          · exact po2 k hk)
        (by
          intro j hj hd k hk
          push Not at hd
          exact pre _ (block_le hT hj hk) m1 m2 (fun p hp => other j hj hd.2 k hk p (Or.inl hp)) (p2 j hj hd.1 k hk))
        (by
          intro p hp
          rw [f2 p fun k hk => hp _ (hs k hk)]
          exact fr p hp)
      refine ⟨(), m3, ?_, s3, ?_, f3⟩
      · simp only [seqLoop, e2]; exact e3
      · intro j hj hd k hk
        refine po3 j hj ?_ k hk
        rcases hd with hd | hd
        · exact Or.inl (Or.inl hd)
        · rcases List.mem_cons.1 hd with rfl | hd
          · exact Or.inl (Or.inr rfl)
          · exact Or.inr hd
  refine (loop order m (fun _ => False) (ho.nodup_iff.2 List.nodup_range) (fun i hi => List.mem_range.1 (ho.mem_iff.1 hi)) (fun _ _ h => h) rfl
    (fun _ _ hd => hd.elim) (fun i hi _ k hk => h0 _ (block_le hT hi hk)) (fun _ _ => rfl)).mono ?_
  rintro _ m' ⟨s, po, fr⟩
  refine ⟨s, fun v hv => ?_, fr⟩
  obtain ⟨i, hi, l, hl, rfl⟩ := block_cover hT hv
  exact po i hi (Or.inr (ho.mem_iff.2 (List.mem_range.2 hi))) l hl

/-! ## Blocks -/

/-- The plan of a block. -/
def sub (o : RBatch) (i : ℕ) : RBatch := { o with M := blockCount o.M o.T i }

theorem sub_raddr (p : Ptr) (i l k : ℕ) : (o.sub i).raddr (p + blockStart o.M o.T i * o.rd) l k = o.raddr p (blockStart o.M o.T i + l) k := by
  unfold raddr sub
  rw [Ptr.add_add]
  congr 1
  ring

theorem sub_caddr (p : Ptr) (i l k c : ℕ) : (o.sub i).caddr (p + 2 * (blockStart o.M o.T i * o.cd)) l k c = o.caddr p (blockStart o.M o.T i + l) k c := by
  unfold caddr sub
  rw [Ptr.add_add]
  congr 1
  ring

theorem sub_isR {p q : Ptr} {i l : ℕ} : (o.sub i).IsR (p + blockStart o.M o.T i * o.rd) l q ↔ o.IsR p (blockStart o.M o.T i + l) q := by
  unfold IsR
  simp only [sub_raddr]
  rfl

theorem sub_isC {p q : Ptr} {i l : ℕ} : (o.sub i).IsC (p + 2 * (blockStart o.M o.T i * o.cd)) l q ↔ o.IsC p (blockStart o.M o.T i + l) q := by
  unfold IsC
  simp only [sub_caddr]
  rfl

theorem sub_realAt {G : ℕ → ℝ} {p : Ptr} {i l : ℕ} {m : Mem} :
    (o.sub i).RealAt G (p + blockStart o.M o.T i * o.rd) l m ↔ o.RealAt G p (blockStart o.M o.T i + l) m := by
  have h : ∀ k, p + blockStart o.M o.T i * o.rd + (l * o.rd + k * o.rs : ℕ) = p + ((blockStart o.M o.T i + l) * o.rd + k * o.rs : ℕ) := fun k => sub_raddr p i l k
  unfold RealAt
  show (∀ k < o.nx, m.dbl1 (p + blockStart o.M o.T i * o.rd + (l * o.rd + k * o.rs : ℕ)) = G k) ↔ _
  simp only [h]

theorem sub_specAt {F : ℕ → ℂ} {p : Ptr} {i l : ℕ} {m : Mem} :
    (o.sub i).SpecAt F (p + 2 * (blockStart o.M o.T i * o.cd)) l m ↔ o.SpecAt F p (blockStart o.M o.T i + l) m := by
  have h : ∀ k, p + 2 * (blockStart o.M o.T i * o.cd) + ((l * o.cd + k * o.cs) * 2 : ℕ) = p + (((blockStart o.M o.T i + l) * o.cd + k * o.cs) * 2 : ℕ) :=
    fun k => sub_caddr p i l k 0
  unfold SpecAt
  show (∀ k < o.nx / 2 + 1, m.cplx (p + 2 * (blockStart o.M o.T i * o.cd) + ((l * o.cd + k * o.cs) * 2 : ℕ)) = F k) ↔ _
  simp only [h]

theorem sub_inBounds (hT : 0 < o.T) {f g : Ptr} {m m1 : Mem} (hb : o.InBounds f g m) (s : m1.size = m.size) {i : ℕ} (hi : i < o.T) :
    (o.sub i).InBounds (f + blockStart o.M o.T i * o.rd) (g + 2 * (blockStart o.M o.T i * o.cd)) m1 := by
  intro l hl
  have h := hb _ (block_le hT hi hl)
  refine ⟨fun k hk => ?_, fun k hk c hc => ?_⟩
  · rw [sub_raddr]; exact Mem.valid_of_size s (h.1 k hk)
  · rw [sub_caddr]; exact Mem.valid_of_size s (h.2 k hk c hc)

theorem sub_distinctR (hT : 0 < o.T) (h : o.DistinctR) {i : ℕ} (hi : i < o.T) : (o.sub i).DistinctR := by
  intro v hv k hk v' hv' k' hk' e
  have := h _ (block_le hT hi hv) k hk _ (block_le hT hi hv') k' hk' (by
    have e' : v * o.rd + k * o.rs = v' * o.rd + k' * o.rs := e
    rw [Nat.add_mul, Nat.add_mul, Nat.add_assoc, Nat.add_assoc, e'])
  exact ⟨by omega, this.2⟩

theorem sub_distinctC (hT : 0 < o.T) (h : o.DistinctC) {i : ℕ} (hi : i < o.T) : (o.sub i).DistinctC := by
  intro v hv k hk v' hv' k' hk' e
  have := h _ (block_le hT hi hv) k hk _ (block_le hT hi hv') k' hk' (by
    have e' : v * o.cd + k * o.cs = v' * o.cd + k' * o.cs := e
    rw [Nat.add_mul, Nat.add_mul, Nat.add_assoc, Nat.add_assoc, e'])
  exact ⟨by omega, this.2⟩

theorem RealAt.congr {G : ℕ → ℝ} {f : Ptr} {v : ℕ} {m1 m2 : Mem} (h : ∀ p, o.IsR f v p → m2.val p = m1.val p) (hr : o.RealAt G f v m1) : o.RealAt G f v m2 := by
  intro k hk
  rw [← hr k hk]
  have e0 : f + (v * o.rd + k * o.rs : ℕ) = o.raddr f v k := rfl
  unfold Mem.dbl1
  rw [e0, h _ ⟨k, hk, rfl⟩]

theorem SpecAt.congr {F : ℕ → ℂ} {g : Ptr} {v : ℕ} {m1 m2 : Mem} (h : ∀ p, o.IsC g v p → m2.val p = m1.val p) (hr : o.SpecAt F g v m1) : o.SpecAt F g v m2 := by
  intro k hk
  rw [← hr k hk]
  have e0 : g + ((v * o.cd + k * o.cs) * 2 : ℕ) = o.caddr g v k 0 := rfl
  unfold Mem.cplx Mem.dbl1
  rw [e0, caddr_one, h _ ⟨(k, 0), hk, by omega, rfl⟩, h _ ⟨(k, 1), hk, by omega, rfl⟩]

theorem isC_unique (h : o.DistinctC) {g p : Ptr} {u v : ℕ} (hu : u < o.M) (hv : v < o.M) (h1 : o.IsC g u p) (h2 : o.IsC g v p) : u = v := by
  obtain ⟨x, a1, a2, a3⟩ := h1
  obtain ⟨y, b1, b2, b3⟩ := h2
  exact (caddr_inj h hu hv a1 b1 a2 b2 (a3.symm.trans b3)).1

theorem isR_unique (h : o.DistinctR) {f p : Ptr} {u v : ℕ} (hu : u < o.M) (hv : v < o.M) (h1 : o.IsR f u p) (h2 : o.IsR f v p) : u = v := by
  obtain ⟨x, a1, a3⟩ := h1
  obtain ⟨y, b1, b3⟩ := h2
  exact (raddr_inj h hu hv a1 b1 (a3.symm.trans b3)).1

theorem executeR_ok (hT : 0 < o.T) {order : List ℕ} (ho : order.Perm (List.range o.T)) {f g : Ptr} {m : Mem} (hb : o.InBounds f g m) (hd : o.DistinctC)
    (hi : o.T = 1 ∨ o.Indep f g) {G : ℕ → ℕ → ℝ} (hG : ∀ v < o.M, o.RealAt (G v) f v m) :
    (o.executeR order f g).Ok m fun _ m' => m'.size = m.size ∧ (∀ v < o.M, o.SpecAt (rdft1 o.nx (G v)) g v m') ∧
      ∀ p, (∀ v < o.M, ¬ o.IsC g v p) → m'.val p = m.val p := by
  unfold executeR
  split_ifs with h1
  · exact r2c_ok hb hd hG
  have hi' := hi.resolve_left h1
  refine blocks_ok (Pre := fun v m => o.RealAt (G v) f v m) (Post := fun v m => o.SpecAt (rdft1 o.nx (G v)) g v m) (R := o.IsR f) (S := o.IsC g) (W := o.IsC g)
    hT ho (fun v _ m1 m2 h hr => hr.congr h) (fun v _ m1 m2 h hr => hr.congr h) ?_ ?_ hG
  · intro u hu v hv huv p hw
    exact ⟨fun hr => hi' v hv u hu (Ne.symm huv) p hr hw, fun hc => huv (isC_unique hd hu hv hw hc)⟩
  · intro i hiT m1 s hG1
    refine (r2c_ok (o := o.sub i) (sub_inBounds hT hb s hiT) (sub_distinctC hT hd hiT) (G := fun l => G (blockStart o.M o.T i + l))
      (fun l hl => sub_realAt.2 (hG1 l hl))).mono ?_
    rintro _ m' ⟨s', e, fr⟩
    exact ⟨s', fun l hl => sub_specAt.1 (e l hl), fun p hp => fr p fun l hl hc => hp l hl (sub_isC.1 hc)⟩

theorem executeC_ok (hT : 0 < o.T) {order : List ℕ} (ho : order.Perm (List.range o.T)) {f g : Ptr} {m : Mem} (hb : o.InBounds f g m) (hdr : o.DistinctR)
    (hi : o.T = 1 ∨ (o.DistinctC ∧ o.Indep f g)) {F : ℕ → ℕ → ℂ} (hF : ∀ v < o.M, HermSpec1 o.nx (F v)) (hS : ∀ v < o.M, o.SpecAt (F v) g v m) :
    (o.executeC order g f).Ok m fun _ m' => m'.size = m.size ∧ (∀ v < o.M, o.RealAt (fun k => (irdft1 o.nx (F v) k).re) f v m') ∧
      ∀ p, (∀ v < o.M, ¬ (o.IsR f v p ∨ o.IsC g v p)) → m'.val p = m.val p := by
  unfold executeC
  split_ifs with h1
  · exact c2r_ok hb hdr hF hS
  obtain ⟨hdc, hi'⟩ := hi.resolve_left h1
  refine blocks_ok (Pre := fun v m => o.SpecAt (F v) g v m) (Post := fun v m => o.RealAt (fun k => (irdft1 o.nx (F v) k).re) f v m) (R := o.IsC g) (S := o.IsR f)
    (W := fun v p => o.IsR f v p ∨ o.IsC g v p) hT ho (fun v _ m1 m2 h hr => hr.congr h) (fun v _ m1 m2 h hr => hr.congr h) ?_ ?_ hS
  · rintro u hu v hv huv p (hw | hw)
    · exact ⟨fun hc => hi' u hu v hv huv p hw hc, fun hr => huv (isR_unique hdr hu hv hw hr)⟩
    · exact ⟨fun hc => huv (isC_unique hdc hu hv hw hc), fun hr => hi' v hv u hu (Ne.symm huv) p hr hw⟩
  · intro i hiT m1 s hS1
    refine (c2r_ok (o := o.sub i) (sub_inBounds hT hb s hiT) (sub_distinctR hT hdr hiT) (F := fun l => F (blockStart o.M o.T i + l))
      (fun l hl => hF _ (block_le hT hiT hl)) (fun l hl => sub_specAt.2 (hS1 l hl))).mono ?_
    rintro _ m' ⟨s', e, fr⟩
    refine ⟨s', fun l hl => sub_realAt.1 (e l hl), fun p hp => fr p fun l hl hc => hp l hl ?_⟩
    exact hc.imp sub_isR.1 sub_isC.1

/-! ## Normalization -/

theorem iters_mul {n s : ℕ} (hs : 0 < s) : iters (n * s) s = n := by
  unfold iters
  rw [Nat.add_sub_assoc hs, Nat.mul_comm, Nat.mul_add_div hs, Nat.div_eq_of_lt (by omega), Nat.add_zero]

theorem normalizeD_ok {f : Ptr} {m : Mem} (hs : 0 < o.rs) (hd : 0 < o.rd) (hb : ∀ v < o.M, ∀ k < o.nx, m.valid (o.raddr f v k)) (hdr : o.DistinctR) :
    (o.normalizeD o.nx o.M o.rs o.rd f).Ok m fun _ m' => m'.size = m.size ∧
      (∀ v < o.M, ∀ k < o.nx, m'.dbl1 (o.raddr f v k) = m.dbl1 (o.raddr f v k) / o.nx) ∧ ∀ p, (∀ v < o.M, ¬ o.IsR f v p) → m'.val p = m.val p := by
  unfold normalizeD
  rw [iters_mul hs, iters_mul hd]
  have ha : ∀ k v, f + (k * o.rs + v * o.rd) = o.raddr f v k := fun k v => by unfold raddr; rw [Nat.add_comm]
  simp only [ha]
  refine par_map1 (fun x : ℕ × ℕ => o.raddr f x.2 x.1) (fun x => m.val (o.raddr f x.2 x.1) * o.norm) (rng2_nodup _ _ _ _) ?_ ?_ ?_ ?_ ?_
  · rintro ⟨k, v⟩ hx; rw [mem_rng2] at hx; body_simp; exact ⟨hb v hx.2.2 k hx.1.2, hb v hx.2.2 k hx.1.2⟩
  · rintro ⟨k, v⟩ _; body_simp
  · rintro ⟨k, v⟩ hx ⟨k', v'⟩ hx' h
    rw [mem_rng2] at hx hx'
    obtain ⟨e1, e2⟩ := raddr_inj hdr hx.2.2 hx'.2.2 hx.1.2 hx'.1.2 h
    exact Prod.ext e2 e1
  · rintro ⟨k, v⟩ hx ⟨k', v'⟩ hx' hne
    rw [mem_rng2] at hx hx'
    have : o.raddr f v' k' ≠ o.raddr f v k := fun h => hne (by
      obtain ⟨e1, e2⟩ := raddr_inj hdr hx'.2.2 hx.2.2 hx'.1.2 hx.1.2 h
      exact Prod.ext e2.symm e1.symm)
    body_simp
    exact fun h => this h.symm
  · intro m' u e
    refine ⟨u.size, fun v hv k hk => ?_, fun p hp => u.frame p ?_⟩
    · have := e (k, v) (mem_rng2.2 ⟨⟨Nat.zero_le _, hk⟩, Nat.zero_le _, hv⟩)
      unfold Mem.dbl1
      rw [this]
      exact RFft.norm_re _
    · rintro ⟨⟨k, v⟩, hx, rfl⟩
      rw [mem_rng2] at hx
      exact hp v hx.2.2 ⟨k, hx.1.2, rfl⟩

theorem normalizeC_ok {g : Ptr} {m : Mem} (hs : 0 < o.cs) (hd : 0 < o.cd) (hb : ∀ v < o.M, ∀ k < o.nxp, ∀ c < 2, m.valid (o.caddr g v k c)) (hdc : o.DistinctC) :
    (o.normalizeC (o.nx / 2 + 1) o.M o.cs o.cd g).Ok m fun _ m' => m'.size = m.size ∧
      (∀ v < o.M, ∀ k < o.nxp, m'.cplx (o.caddr g v k 0) = m.cplx (o.caddr g v k 0) / o.nx) ∧ ∀ p, (∀ v < o.M, ¬ o.IsC g v p) → m'.val p = m.val p := by
  unfold normalizeC
  rw [iters_mul hs, iters_mul hd]
  have ha : ∀ k v, g + 2 * (k * o.cs + v * o.cd) = o.caddr g v k 0 := fun k v => by unfold caddr; congr 1; ring
  have ha1 : ∀ k v, o.caddr g v k 0 + 1 = o.caddr g v k 1 := fun k v => caddr_one g v k
  simp only [ha, ha1]
  have inj : ∀ x ∈ rng2 0 (o.nx / 2 + 1) 0 o.M, ∀ y ∈ rng2 0 (o.nx / 2 + 1) 0 o.M, ∀ c < 2, ∀ c' < 2, o.caddr g x.2 x.1 c = o.caddr g y.2 y.1 c' → x = y ∧ c = c' := by
    intro x hx y hy c hc c' hc' h
    rw [mem_rng2] at hx hy
    obtain ⟨e1, e2, e3⟩ := caddr_inj hdc hx.2.2 hy.2.2 hx.1.2 hy.1.2 hc hc' h
    exact ⟨Prod.ext e2 e1, e3⟩
  refine par_map2 (fun x : ℕ × ℕ => o.caddr g x.2 x.1 0) (fun x => m.val (o.caddr g x.2 x.1 0) * o.norm) (fun x => o.caddr g x.2 x.1 1)
    (fun x => m.val (o.caddr g x.2 x.1 1) * o.norm) (rng2_nodup _ _ _ _) ?_ ?_ ?_ ?_ ?_ ?_ ?_
  · intro x hx
    rw [mem_rng2] at hx
    have h0 := hb x.2 hx.2.2 x.1 hx.1.2 0 (by omega)
    have h1 := hb x.2 hx.2.2 x.1 hx.1.2 1 (by omega)
    body_simp
    exact ⟨h0, h1, h0, h1⟩
  · intro x _; body_simp
  · exact fun x hx y hy h => (inj x hx y hy 0 (by omega) 0 (by omega) h).1
  · exact fun x hx y hy h => (inj x hx y hy 1 (by omega) 1 (by omega) h).1
  · exact fun x hx y hy h => absurd (inj x hx y hy 0 (by omega) 1 (by omega) h).2 (by omega)
  · intro x hx y hy hne
    have h00 : o.caddr g x.2 x.1 0 ≠ o.caddr g y.2 y.1 0 := fun h => hne (inj x hx y hy 0 (by omega) 0 (by omega) h).1
    have h01 : o.caddr g x.2 x.1 0 ≠ o.caddr g y.2 y.1 1 := fun h => hne (inj x hx y hy 0 (by omega) 1 (by omega) h).1
    have h10 : o.caddr g x.2 x.1 1 ≠ o.caddr g y.2 y.1 0 := fun h => hne (inj x hx y hy 1 (by omega) 0 (by omega) h).1
    have h11 : o.caddr g x.2 x.1 1 ≠ o.caddr g y.2 y.1 1 := fun h => hne (inj x hx y hy 1 (by omega) 1 (by omega) h).1
    body_simp
    exact ⟨⟨h00, h01⟩, h10, h11⟩
  · intro m' u e e'
    refine ⟨u.size, fun v hv k hk => ?_, fun p hp => u.frame p ?_⟩
    · have hx : (k, v) ∈ rng2 0 (o.nx / 2 + 1) 0 o.M := mem_rng2.2 ⟨⟨Nat.zero_le _, hk⟩, Nat.zero_le _, hv⟩
      have a0 := e (k, v) hx
      have a1 := e' (k, v) hx
      unfold Mem.cplx Mem.dbl1
      rw [caddr_one, a0, a1]
      apply Complex.ext
      · rw [Complex.div_natCast_re]; exact RFft.norm_re _
      · rw [Complex.div_natCast_im]; exact RFft.norm_re _
    · rintro (⟨⟨k, v⟩, hx, rfl⟩ | ⟨⟨k, v⟩, hx, rfl⟩)
      · rw [mem_rng2] at hx
        exact hp v hx.2.2 ⟨(k, 0), hx.1.2, by omega, rfl⟩
      · rw [mem_rng2] at hx
        exact hp v hx.2.2 ⟨(k, 1), hx.1.2, by omega, rfl⟩

end RBatch
end Fftwpp
