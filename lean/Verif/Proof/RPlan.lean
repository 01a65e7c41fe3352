import Verif.Model.Herm
import Verif.Proof.Driver

/-! Execution of the real plans. -/

namespace Fftwpp
open Finset
namespace RPlan

/-- Layout of the plans of the Hermitian transforms: either one copy and `P` rows, or `C` copies of one row. -/
def Geo (pl : RPlan) (m P C : ℕ) : Prop := pl.n = m ∧
  ((C = 1 ∧ pl.howmany = P ∧ ∀ h s, pl.cidx h s = (m / 2 + 1) * h + s ∧ pl.ridx h s = m * h + s) ∨
   (P = 1 ∧ pl.howmany = C ∧ ∀ h s, pl.cidx h s = C * s + h ∧ pl.ridx h s = C * s + h))

theorem Geo.split {pl : RPlan} {m P C : ℕ} (h : pl.Geo m P C) : ∃ U K : ℕ → ℕ,
    (∀ i < pl.howmany, U i < P ∧ K i < C ∧ ∀ s, pl.cidx i s = C * ((m / 2 + 1) * U i + s) + K i ∧ pl.ridx i s = C * (m * U i + s) + K i) ∧
    (∀ u < P, ∀ c < C, ∃ i < pl.howmany, U i = u ∧ K i = c) ∧
    (∀ i < pl.howmany, ∀ j < pl.howmany, U i = U j → K i = K j → i = j) := by
  obtain ⟨_, ⟨h1, h2, h3⟩ | ⟨h1, h2, h3⟩⟩ := h
  · refine ⟨fun i => i, fun _ => 0, fun i hi => ⟨h2 ▸ hi, by simp [h1], fun s => ?_⟩, fun u hu c hc => ⟨u, by omega, rfl, by simp only; omega⟩,
      fun i _ j _ e _ => e⟩
    rw [(h3 i s).1, (h3 i s).2, h1]; simp
  · refine ⟨fun _ => 0, fun i => i, fun i hi => ⟨by simp [h1], h2 ▸ hi, fun s => ?_⟩, fun u hu c hc => ⟨c, by omega, by simp only; omega, rfl⟩,
      fun i _ j _ _ e => e⟩
    rw [(h3 i s).1, (h3 i s).2]; simp

theorem Geo.cinj {pl : RPlan} {m P C : ℕ} (h : pl.Geo m P C) : ∀ i < pl.howmany, ∀ s < pl.n / 2 + 1, ∀ i' < pl.howmany, ∀ s' < pl.n / 2 + 1,
    pl.cidx i s = pl.cidx i' s' → i = i' ∧ s = s' := by
  obtain ⟨U, K, h1, h2, h3⟩ := h.split
  intro i hi s hs i' hi' s' hs' e
  rw [h.1] at hs hs'
  rw [((h1 i hi).2.2 s).1, ((h1 i' hi').2.2 s').1] at e
  obtain ⟨e1, e2⟩ := radix_inj (h1 i hi).2.1 (h1 i' hi').2.1 e
  obtain ⟨e3, e4⟩ := radix_inj hs hs' e1
  exact ⟨h3 i hi i' hi' e3 e2, e4⟩

theorem Geo.rinj {pl : RPlan} {m P C : ℕ} (h : pl.Geo m P C) : ∀ i < pl.howmany, ∀ s < pl.n, ∀ i' < pl.howmany, ∀ s' < pl.n,
    pl.ridx i s = pl.ridx i' s' → i = i' ∧ s = s' := by
  obtain ⟨U, K, h1, h2, h3⟩ := h.split
  intro i hi s hs i' hi' s' hs' e
  rw [h.1] at hs hs'
  rw [((h1 i hi).2.2 s).2, ((h1 i' hi').2.2 s').2] at e
  obtain ⟨e1, e2⟩ := radix_inj (h1 i hi).2.1 (h1 i' hi').2.1 e
  obtain ⟨e3, e4⟩ := radix_inj hs hs' e1
  exact ⟨h3 i hi i' hi' e3 e2, e4⟩

theorem Geo.clt {pl : RPlan} {m P C : ℕ} (h : pl.Geo m P C) : ∀ i < pl.howmany, ∀ s < pl.n / 2 + 1,
    pl.cidx i s < C * ((m / 2 + 1) * P) := by
  obtain ⟨U, K, h1, _, _⟩ := h.split
  intro i hi s hs
  rw [h.1] at hs
  rw [((h1 i hi).2.2 s).1]
  exact radix_lt (h1 i hi).2.1 (radix_lt hs (h1 i hi).1)

theorem Geo.rlt {pl : RPlan} {m P C : ℕ} (h : pl.Geo m P C) : ∀ i < pl.howmany, ∀ s < pl.n,
    pl.ridx i s / 2 < (C * (m * P) + 1) / 2 := by
  obtain ⟨U, K, h1, _, _⟩ := h.split
  intro i hi s hs
  rw [h.1] at hs
  rw [((h1 i hi).2.2 s).2]
  have := radix_lt (h1 i hi).2.1 (radix_lt hs (h1 i hi).1)
  omega

theorem Geo.defined {pl : RPlan} {m P C : ℕ} (h : pl.Geo m P C) {c r : Ptr} {mem : Mem} (hs : c = r ∨ c.buf ≠ r.buf)
    (hc : ∀ i < C * ((m / 2 + 1) * P), mem.valid (c + i)) (hr : ∀ i < (C * (m * P) + 1) / 2, mem.valid (r + i)) : pl.Defined c r mem :=
  ⟨fun i hi s hs => hc _ (h.clt i hi s hs), fun i hi s hs => hr _ (h.rlt i hi s hs), h.cinj, h.rinj,
    hs.imp id fun hb _ _ _ _ _ _ _ _ => Ptr.ne_of_buf (by simpa using hb)⟩

theorem _root_.Fftwpp.SepPtr.eq_or {b : Bool} {W F : Ptr} (h : SepPtr b W F) : W = F ∨ W.buf ≠ F.buf := by
  rcases h with h | h
  · exact Or.inl h.2
  · exact Or.inr h.2

open Classical in
/-- Complex to real. -/
theorem c2r_ok {pl : RPlan} {m P C : ℕ} (h : pl.Geo m P C) {src dst : Ptr} {mem : Mem} (hs : SepPtr pl.inplace src dst)
    (hc : ∀ i < C * ((m / 2 + 1) * P), mem.valid (src + i)) (hr : ∀ i < (C * (m * P) + 1) / 2, mem.valid (dst + i))
    {Q : Unit → Mem → Prop}
    (hQ : ∀ m', mem.Upd m' (fun p => InArr src (C * ((m / 2 + 1) * P)) p ∨ InArr dst ((C * (m * P) + 1) / 2) p) →
      (∀ u < P, ∀ c < C, realSpec m (fun s => mem.val (src + (C * ((m / 2 + 1) * u + s) + c))) → ∀ j < m,
        m'.dbl dst (C * (m * u + j) + c) =
          (∑ s ∈ range m, full m (fun s => mem.val (src + (C * ((m / 2 + 1) * u + s) + c))) s * w m (s * j)).re) → Q () m') :
    (pl.c2r src dst).Ok mem Q := by
  obtain ⟨U, K, h1, h2, h3⟩ := h.split
  have hd := h.defined hs.eq_or hc hr
  unfold Cmd.Ok c2r
  rw [if_neg (by simp [hs.dec]), if_pos hd]
  refine ⟨(), _, rfl, hQ _ ⟨rfl, ?_⟩ ?_⟩
  · intro p hp
    rw [not_or] at hp
    have n1 : ∀ par, ¬ ∃ hj : ℕ × ℕ, hj.1 < pl.howmany ∧ hj.2 < pl.n ∧ p = dst + pl.ridx hj.1 hj.2 / 2 ∧ pl.ridx hj.1 hj.2 % 2 = par := by
      rintro par ⟨hj, a1, a2, a3, _⟩
      exact hp.2 ⟨_, h.rlt _ a1 _ a2, a3⟩
    have n2 : ¬ ∃ hs : ℕ × ℕ, hs.1 < pl.howmany ∧ hs.2 < pl.n / 2 + 1 ∧ p = src + pl.cidx hs.1 hs.2 := by
      rintro ⟨hj, a1, a2, a3⟩
      exact hp.1 ⟨_, h.clt _ a1 _ a2, a3⟩
    simp only [dif_neg (n1 _), if_neg n2]
  · intro u hu c hc' hreal j hj
    obtain ⟨i, hi, rfl, rfl⟩ := h2 u hu c hc'
    have hX : (fun s => mem.val (src + pl.cidx i s)) = fun s => mem.val (src + (C * ((m / 2 + 1) * U i + s) + K i)) := by
      funext s; rw [((h1 i hi).2.2 s).1]
    have hn := h.1
    rw [← ((h1 i hi).2.2 j).2]
    have key : ∀ (par : ℕ) (part : ℂ → ℝ), pl.ridx i j % 2 = par →
        (if hx : ∃ hj : ℕ × ℕ, hj.1 < pl.howmany ∧ hj.2 < pl.n ∧ dst + pl.ridx i j / 2 = dst + pl.ridx hj.1 hj.2 / 2 ∧ pl.ridx hj.1 hj.2 % 2 = par then
          if realSpec pl.n (fun s => mem.val (src + pl.cidx hx.choose.1 s)) then
            (∑ s ∈ range pl.n, full pl.n (fun s => mem.val (src + pl.cidx hx.choose.1 s)) s * w pl.n (s * hx.choose.2)).re
          else part (pl.junk mem src dst (dst + pl.ridx i j / 2))
        else if ∃ hs : ℕ × ℕ, hs.1 < pl.howmany ∧ hs.2 < pl.n / 2 + 1 ∧ dst + pl.ridx i j / 2 = src + pl.cidx hs.1 hs.2 then
          part (pl.junk mem src dst (dst + pl.ridx i j / 2))
        else part (mem.val (dst + pl.ridx i j / 2))) =
        (∑ s ∈ range m, full m (fun s => mem.val (src + (C * ((m / 2 + 1) * U i + s) + K i))) s * w m (s * j)).re := by
      intro par part hpar
      have hex : ∃ hj : ℕ × ℕ, hj.1 < pl.howmany ∧ hj.2 < pl.n ∧ dst + pl.ridx i j / 2 = dst + pl.ridx hj.1 hj.2 / 2 ∧ pl.ridx hj.1 hj.2 % 2 = par :=
        ⟨(i, j), hi, by rw [hn]; exact hj, rfl, hpar⟩
      rw [dif_pos hex]
      obtain ⟨a1, a2, a3, a4⟩ := hex.choose_spec
      rw [Ptr.add_inj] at a3
      obtain ⟨e1, e2⟩ := h.rinj i hi j (by rw [hn]; exact hj) _ a1 _ a2 (by omega)
      rw [← e1, ← e2, hX, hn, if_pos hreal]
    unfold Mem.dbl
    split_ifs with hp
    · exact key 0 Complex.re hp
    · exact key 1 Complex.im (by omega)

/-- Real to complex. -/
theorem r2c_ok {pl : RPlan} {m P C : ℕ} (h : pl.Geo m P C) {src dst : Ptr} {mem : Mem} (hs : SepPtr pl.inplace src dst)
    (hc : ∀ i < C * ((m / 2 + 1) * P), mem.valid (dst + i)) (hr : ∀ i < (C * (m * P) + 1) / 2, mem.valid (src + i))
    {Q : Unit → Mem → Prop}
    (hQ : ∀ m', mem.Upd m' (fun p => InArr dst (C * ((m / 2 + 1) * P)) p ∨ (pl.inplace = true ∧ InArr src ((C * (m * P) + 1) / 2) p)) →
      (∀ u < P, ∀ c < C, ∀ s < m / 2 + 1, m'.val (dst + (C * ((m / 2 + 1) * u + s) + c)) =
          ∑ j ∈ range m, (mem.dbl src (C * (m * u + j) + c) : ℂ) * w m (-((s : ℤ) * j))) → Q () m') :
    (pl.r2c src dst).Ok mem Q := by
  obtain ⟨U, K, h1, h2, h3⟩ := h.split
  have hd : pl.Defined dst src mem := h.defined (hs.eq_or.imp Eq.symm Ne.symm) hc hr
  unfold Cmd.Ok r2c
  rw [if_neg (by simp [hs.dec]), if_pos hd]
  refine ⟨(), _, rfl, hQ _ ⟨rfl, ?_⟩ ?_⟩
  · intro p hp
    rw [not_or] at hp
    have n2 : ¬ ∃ hs : ℕ × ℕ, hs.1 < pl.howmany ∧ hs.2 < pl.n / 2 + 1 ∧ p = dst + pl.cidx hs.1 hs.2 := by
      rintro ⟨hj, a1, a2, a3⟩
      exact hp.1 ⟨_, h.clt _ a1 _ a2, a3⟩
    have n1 : ¬ (pl.inplace = true ∧ ∃ hj : ℕ × ℕ, hj.1 < pl.howmany ∧ hj.2 < pl.n ∧ p = src + pl.ridx hj.1 hj.2 / 2) := by
      rintro ⟨a0, hj, a1, a2, a3⟩
      exact hp.2 ⟨a0, _, h.rlt _ a1 _ a2, a3⟩
    simp only [dif_neg n2, if_neg n1]
  · intro u hu c hc' s hs'
    obtain ⟨i, hi, rfl, rfl⟩ := h2 u hu c hc'
    have hn := h.1
    rw [← ((h1 i hi).2.2 s).1]
    have hex : ∃ hs : ℕ × ℕ, hs.1 < pl.howmany ∧ hs.2 < pl.n / 2 + 1 ∧ dst + pl.cidx i s = dst + pl.cidx hs.1 hs.2 :=
      ⟨(i, s), hi, by rw [hn]; exact hs', rfl⟩
    simp only [dif_pos hex]
    obtain ⟨a1, a2, a3⟩ := hex.choose_spec
    rw [Ptr.add_inj] at a3
    obtain ⟨e1, e2⟩ := h.cinj i hi s (by rw [hn]; exact hs') _ a1 _ a2 a3
    rw [← e1, ← e2, hn]
    refine sum_congr rfl fun j _ => ?_
    rw [((h1 i hi).2.2 j).2]

end RPlan
end Fftwpp
