import Verif.Proof.RWF
import Verif.Proof.Driver3

/-! Tools for the loops of the transforms of real data. -/

namespace Fftwpp
open Finset

theorem Cmd.bind_bind {α β γ : Type} (a : Cmd α) (f : α → Cmd β) (g : β → Cmd γ) : ((a >>= f) >>= g) = (a >>= fun x => f x >>= g) := by
  funext m
  rw [Cmd.bind_apply, Cmd.bind_apply, Cmd.bind_apply]
  cases a m with
  | error e => rfl
  | ok y => rfl

/-! ### Real plans acting on columns -/
namespace RPlan
variable {n C S : ℕ} {inpl : Bool} {J : Mem → Ptr → Ptr → Ptr → ℂ} {src dst : Ptr} {mem : Mem} {Q : Unit → Mem → Prop}

theorem wordOf_add (p : Ptr) (i : ℕ) : wordOf (dptr p + i) = p + i / 2 := by
  unfold wordOf dptr; ext <;> simp; omega

theorem cols_defined (hCS : C ≤ S) {c r : Ptr} (hs : c = r ∨ c.buf ≠ r.buf)
    (hc : ∀ i < n / 2 + 1, ∀ k < C, mem.valid (c + (S * i + k))) (hr : ∀ i < n, ∀ k < C, mem.split.valid (dptr r + (S * i + k))) :
    (RPlan.mk n C S 1 S 1 inpl J).Defined c r mem := by
  refine ⟨?_, ?_, ?_, ?_, hs.imp id fun hb _ _ _ _ _ _ _ _ => Ptr.ne_of_buf (by simpa using hb)⟩
  · intro h hh s hs'
    simp only [cidx] at hh hs' ⊢
    rw [show h * 1 + s * S = S * s + h by ring]
    exact hc _ hs' _ hh
  · intro h hh s hs'
    simp only [ridx] at hh hs' ⊢
    rw [show h * 1 + s * S = S * s + h by ring]
    have := hr _ hs' _ hh
    rwa [Mem.split_valid, wordOf_add] at this
  · intro h hh s hs' h' hh' s' hs'' e
    simp only [cidx] at hh hh' e
    rw [show h * 1 + s * S = S * s + h by ring, show h' * 1 + s' * S = S * s' + h' by ring] at e
    exact (radix_inj (by omega) (by omega) e).symm
  · intro h hh s hs' h' hh' s' hs'' e
    simp only [ridx] at hh hh' e
    rw [show h * 1 + s * S = S * s + h by ring, show h' * 1 + s' * S = S * s' + h' by ring] at e
    exact (radix_inj (by omega) (by omega) e).symm

/-- Real to complex on `C` columns of stride `S`. -/
theorem r2c_cols (hCS : C ≤ S) (hs : SepPtr inpl src dst)
    (hc : ∀ i < n / 2 + 1, ∀ k < C, mem.valid (dst + (S * i + k))) (hr : ∀ i < n, ∀ k < C, mem.split.valid (dptr src + (S * i + k)))
    (hQ : ∀ m', mem.Upd m' (fun p => (∃ i < n / 2 + 1, ∃ k < C, p = dst + (S * i + k)) ∨
        (inpl = true ∧ ∃ i < n, ∃ k < C, p = wordOf (dptr src + (S * i + k)))) →
      (∀ c < C, ∀ s < n / 2 + 1, m'.val (dst + (S * s + c)) =
          ∑ j ∈ range n, (mem.cell (dptr src + (S * j + c)) : ℂ) * w n (-((s : ℤ) * j))) → Q () m') :
    ((RPlan.mk n C S 1 S 1 inpl J).r2c src dst).Ok mem Q := by
  have hd := cols_defined (n := n) (inpl := inpl) (J := J) hCS (hs.eq_or.imp Eq.symm Ne.symm) hc hr
  have hci : ∀ h s, (RPlan.mk n C S 1 S 1 inpl J).cidx h s = S * s + h := fun h s => by simp only [cidx]; ring
  have hri : ∀ h s, (RPlan.mk n C S 1 S 1 inpl J).ridx h s = S * s + h := fun h s => by simp only [ridx]; ring
  unfold Cmd.Ok r2c
  rw [if_neg (by simp [hs.dec]), if_pos hd]
  refine ⟨(), _, rfl, hQ _ ⟨rfl, ?_⟩ ?_⟩
  · intro p hp
    rw [not_or] at hp
    simp only
    rw [dif_neg, if_neg]
    · rintro ⟨a0, hj, a1, a2, a3⟩
      rw [hri] at a3
      exact hp.2 ⟨a0, _, a2, _, a1, by rw [wordOf_add]; exact a3⟩
    · rintro ⟨hj, a1, a2, a3⟩
      rw [hci] at a3
      exact hp.1 ⟨_, a2, _, a1, a3⟩
  · intro c hc' s hs'
    have hex : ∃ hs : ℕ × ℕ, hs.1 < C ∧ hs.2 < n / 2 + 1 ∧ dst + (S * s + c) = dst + (RPlan.mk n C S 1 S 1 inpl J).cidx hs.1 hs.2 :=
      ⟨(c, s), hc', hs', by rw [hci]⟩
    simp only
    rw [dif_pos hex]
    obtain ⟨a1, a2, a3⟩ := hex.choose_spec
    rw [Ptr.add_inj, hci] at a3
    obtain ⟨e1, e2⟩ := radix_inj (by omega) (by omega) a3
    rw [← e1]
    refine sum_congr rfl fun j _ => ?_
    rw [hri, Mem.dbl_cell, ← e2]

open Classical in
/-- Complex to real on `C` columns of stride `S`. -/
theorem c2r_cols (hCS : C ≤ S) (hs : SepPtr inpl src dst)
    (hc : ∀ i < n / 2 + 1, ∀ k < C, mem.valid (src + (S * i + k))) (hr : ∀ i < n, ∀ k < C, mem.split.valid (dptr dst + (S * i + k)))
    (hQ : ∀ m', mem.Upd m' (fun p => (∃ i < n / 2 + 1, ∃ k < C, p = src + (S * i + k)) ∨
        (∃ i < n, ∃ k < C, p = wordOf (dptr dst + (S * i + k)))) →
      (∀ c < C, realSpec n (fun s => mem.val (src + (S * s + c))) → ∀ j < n, m'.cell (dptr dst + (S * j + c)) =
          (∑ s ∈ range n, full n (fun s => mem.val (src + (S * s + c))) s * w n (s * j)).re) → Q () m') :
    ((RPlan.mk n C S 1 S 1 inpl J).c2r src dst).Ok mem Q := by
  have hd := cols_defined (n := n) (inpl := inpl) (J := J) hCS hs.eq_or hc hr
  generalize hpl : RPlan.mk n C S 1 S 1 inpl J = pl at hd ⊢
  have hci : ∀ h s, pl.cidx h s = S * s + h := fun h s => by subst hpl; simp only [cidx]; ring
  have hri : ∀ h s, pl.ridx h s = S * s + h := fun h s => by subst hpl; simp only [ridx]; ring
  have hn : pl.n = n := by subst hpl; rfl
  have hC : pl.howmany = C := by subst hpl; rfl
  have hi : pl.inplace = inpl := by subst hpl; rfl
  unfold Cmd.Ok c2r
  rw [hi, if_neg (by simp [hs.dec]), if_pos hd]
  refine ⟨(), _, rfl, hQ _ ⟨rfl, ?_⟩ ?_⟩
  · intro p hp
    rw [not_or] at hp
    have n1 : ∀ par, ¬ ∃ hj : ℕ × ℕ, hj.1 < pl.howmany ∧ hj.2 < pl.n ∧ p = dst + pl.ridx hj.1 hj.2 / 2 ∧ pl.ridx hj.1 hj.2 % 2 = par := by
      rintro par ⟨hj, a1, a2, a3, _⟩
      rw [hri] at a3
      exact hp.2 ⟨_, hn ▸ a2, _, hC ▸ a1, by rw [wordOf_add]; exact a3⟩
    have n2 : ¬ ∃ hs : ℕ × ℕ, hs.1 < pl.howmany ∧ hs.2 < pl.n / 2 + 1 ∧ p = src + pl.cidx hs.1 hs.2 := by
      rintro ⟨hj, a1, a2, a3⟩
      rw [hci] at a3
      exact hp.1 ⟨_, hn ▸ a2, _, hC ▸ a1, a3⟩
    simp only [dif_neg (n1 _), if_neg n2]
  · intro c hc' hreal j hj
    have hX : (fun s => mem.val (src + pl.cidx c s)) = fun s => mem.val (src + (S * s + c)) := by
      funext s; rw [hci]
    rw [← Mem.dbl_cell, ← hri]
    have key : ∀ (par : ℕ) (part : ℂ → ℝ), pl.ridx c j % 2 = par →
        (if hx : ∃ hj : ℕ × ℕ, hj.1 < pl.howmany ∧ hj.2 < pl.n ∧ dst + pl.ridx c j / 2 = dst + pl.ridx hj.1 hj.2 / 2 ∧ pl.ridx hj.1 hj.2 % 2 = par then
          if realSpec pl.n (fun s => mem.val (src + pl.cidx hx.choose.1 s)) then
            (∑ s ∈ range pl.n, full pl.n (fun s => mem.val (src + pl.cidx hx.choose.1 s)) s * w pl.n (s * hx.choose.2)).re
          else part (pl.junk mem src dst (dst + pl.ridx c j / 2))
        else if ∃ hs : ℕ × ℕ, hs.1 < pl.howmany ∧ hs.2 < pl.n / 2 + 1 ∧ dst + pl.ridx c j / 2 = src + pl.cidx hs.1 hs.2 then
          part (pl.junk mem src dst (dst + pl.ridx c j / 2))
        else part (mem.val (dst + pl.ridx c j / 2))) =
        (∑ s ∈ range n, full n (fun s => mem.val (src + (S * s + c))) s * w n (s * j)).re := by
      intro par part hpar
      have hex : ∃ hj : ℕ × ℕ, hj.1 < pl.howmany ∧ hj.2 < pl.n ∧ dst + pl.ridx c j / 2 = dst + pl.ridx hj.1 hj.2 / 2 ∧ pl.ridx hj.1 hj.2 % 2 = par :=
        ⟨(c, j), by rw [hC]; exact hc', by rw [hn]; exact hj, rfl, hpar⟩
      rw [dif_pos hex]
      obtain ⟨a1, a2, a3, a4⟩ := hex.choose_spec
      rw [Ptr.add_inj] at a3
      have a5 : pl.ridx c j = pl.ridx hex.choose.1 hex.choose.2 := by omega
      replace a5 := (hri _ _).symm.trans (a5.trans (hri _ _))
      obtain ⟨e1, e2⟩ := radix_inj (by omega) (by omega) a5
      rw [← e2, ← e1, hX, hn, if_pos hreal]
    unfold Mem.dbl
    split_ifs with hp
    · exact key 0 Complex.re hp
    · exact key 1 Complex.im (by omega)

end RPlan

/-! ### Loop bodies -/

/-- The body `b`, run in `m` seen as an array of doubles, stores `ws` and reads only doubles in `R`. -/
structure Body.Does (b : Body Unit) (m : Mem) (ws : List (Ptr × ℝ)) (R : Ptr → Prop) : Prop where
  good : b.Good m.split
  wrs : b.wrs m.split = ws.map fun x => (x.1, (x.2 : ℂ))
  rds : ∀ x ∈ b.rds m.split, R x

section
variable {m : Mem} {ws : List (Ptr × ℝ)} {R : Ptr → Prop}

theorem Mem.split_dptr {p : Ptr} : m.split.valid (dptr p) ↔ m.valid p := by
  rw [Mem.split_valid]
  have : wordOf (dptr p) = p := by unfold wordOf dptr; ext <;> simp
  rw [this]

theorem Mem.split_dptr1 {p : Ptr} : m.split.valid (dptr p + 1) ↔ m.valid p := by
  rw [Mem.split_valid]
  have : wordOf (dptr p + 1) = p := by unfold wordOf dptr; ext <;> simp; omega
  rw [this]

theorem Does.get {t : Table} {i : ℕ} {k : ℂ → Body Unit} (h : t.lo ≤ i ∧ i < t.hi) (hk : (k (t.val i)).Does m ws R) :
    (t.get i >>= k).Does m ws R :=
  ⟨⟨h, hk.good⟩, hk.wrs, hk.rds⟩

theorem Does.getD {x : Ptr} {k : ℝ → Body Unit} (h : m.split.valid x) (hR : R x) (hk : (k (m.cell x)).Does m ws R) :
    (Fftwpp.getD x >>= k).Does m ws R := by
  have e : (m.split.val x).re = m.cell x := by rw [Mem.split_val, Complex.ofReal_re]
  refine ⟨⟨h, ?_⟩, ?_, ?_⟩
  · show (k (m.split.val x).re).Good m.split
    rw [e]; exact hk.good
  · show (k (m.split.val x).re).wrs m.split = _
    rw [e]; exact hk.wrs
  · show ∀ y ∈ x :: (k (m.split.val x).re).rds m.split, R y
    rw [e]
    intro y hy
    rcases List.mem_cons.1 hy with rfl | hy
    · exact hR
    · exact hk.rds y hy

theorem Does.getC {p : Ptr} {k : ℂ → Body Unit} (h : m.valid p) (hR : R (dptr p)) (hR' : R (dptr p + 1))
    (hk : (k (m.val p)).Does m ws R) : (Fftwpp.getC p >>= k).Does m ws R := by
  have : (Fftwpp.getD (dptr p) >>= fun x => Fftwpp.getD (dptr p + 1) >>= fun y => k ⟨x, y⟩).Does m ws R := by
    refine Does.getD (Mem.split_dptr.2 h) hR (Does.getD (Mem.split_dptr1.2 h) hR' ?_)
    rw [← Mem.val_cell]; exact hk
  exact this

theorem Does.setC {p : Ptr} {v v' : ℂ} (h : m.valid p) (e : v = v') :
    (Fftwpp.setC p v).Does m [(dptr p, v'.re), (dptr p + 1, v'.im)] R := by
  subst e
  refine ⟨⟨Mem.split_dptr.2 h, (Mem.split_dptr1.2 h), trivial⟩, rfl, ?_⟩
  intro x hx
  exact absurd hx (by show x ∉ ([] : List Ptr); simp)

theorem Does.setD {x : Ptr} {v v' : ℝ} (h : m.split.valid x) (e : v = v') : (Fftwpp.setD x v).Does m [(x, v')] R := by
  subst e
  refine ⟨⟨h, trivial⟩, rfl, ?_⟩
  intro x hx
  exact absurd hx (by show x ∉ ([] : List Ptr); simp)

/-- A sequence of increments. -/
noncomputable def incs : List (Ptr × ℝ) → Body Unit
  | [] => .ret ()
  | x :: l => do
    incD x.1 x.2
    incs l

theorem incs_does (l : List (Ptr × ℝ)) (hn : (l.map Prod.fst).Nodup) (hv : ∀ x ∈ l, m.split.valid x.1) (hR : ∀ x ∈ l, R x.1) :
    (incs l).Does m (l.map fun x => (x.1, m.cell x.1 + x.2)) R := by
  have key : ∀ (l : List (Ptr × ℝ)) (d : Mem), (l.map Prod.fst).Nodup → (∀ x ∈ l, d.valid x.1) →
      (incs l).Good d ∧ (incs l).wrs d = l.map (fun x => (x.1, (((d.val x.1).re + x.2 : ℝ) : ℂ))) ∧ (incs l).rds d = l.map Prod.fst := by
    intro l
    induction l with
    | nil => intro d _ _; exact ⟨trivial, rfl, rfl⟩
    | cons x l ih =>
      intro d hn hv
      simp only [List.map_cons, List.nodup_cons] at hn
      have hx := hv x (List.mem_cons_self ..)
      obtain ⟨g1, g2, g3⟩ := ih (d.set x.1 (((d.val x.1).re + x.2 : ℝ) : ℂ)) hn.2
        (fun y hy => by rw [Mem.set_valid]; exact hv y (List.mem_cons_of_mem _ hy))
      refine ⟨⟨hx, hx, g1⟩, ?_, ?_⟩
      · show (x.1, _) :: (incs l).wrs _ = _
        rw [List.map_cons, g2]
        congr 1
        refine List.map_congr_left fun y hy => ?_
        have : y.1 ≠ x.1 := fun e => hn.1 (List.mem_map.2 ⟨y, hy, e⟩)
        rw [Mem.set_val, if_neg this]
      · show x.1 :: (incs l).rds _ = _
        rw [g3, List.map_cons]
  obtain ⟨g1, g2, g3⟩ := key l m.split hn hv
  refine ⟨g1, ?_, ?_⟩
  · rw [g2, List.map_map]
    refine List.map_congr_left fun y _ => ?_
    simp only [Function.comp, Mem.split_val, Complex.ofReal_re]
  · intro x hx
    rw [g3] at hx
    obtain ⟨y, hy, rfl⟩ := List.mem_map.1 hx
    exact hR y hy
end

theorem cell_congr {m m' : Mem} {b : ℕ} (h : ∀ p : Ptr, p.buf ≠ b → m'.val p = m.val p) {x : Ptr} (hx : x.buf ≠ b) : m'.cell x = m.cell x := by
  unfold Mem.cell
  rw [h _ (show (⟨x.buf, x.off / 2⟩ : Ptr).buf ≠ b from hx)]

theorem val_of_cells {m m' : Mem} {b : ℕ} (h : ∀ x : Ptr, x.buf ≠ b → m'.cell x = m.cell x) {p : Ptr} (hp : p.buf ≠ b) : m'.val p = m.val p := by
  rw [Mem.val_cell, Mem.val_cell, h _ (by simpa [dptr] using hp), h _ (by simpa [dptr] using hp)]

theorem mem_rng20 {a b C s c : ℕ} : (s, c) ∈ rng2 a b 0 C ↔ a ≤ s ∧ s < b ∧ 0 ≤ c ∧ c < C := by
  rw [mem_rng2]; exact and_assoc

/-! ### Loops filling rows of words -/

/-- The rows `j` with `J j` of the array of words at `U` hold `v j c`; nothing else changed since `mem0`. -/
def WRows (C S : ℕ) (U : Ptr) (J : ℕ → Prop) (v : ℕ → ℕ → ℂ) (mem0 m : Mem) : Prop :=
  mem0.Upd m (fun p => ∃ j c, J j ∧ c < C ∧ p = U + (S * j + c)) ∧ ∀ j c, J j → c < C → m.val (U + (S * j + c)) = v j c

/-- The same for doubles. -/
def DRows (C S : ℕ) (x : Ptr) (J : ℕ → Prop) (v : ℕ → ℕ → ℝ) (mem0 m : Mem) : Prop :=
  mem0.DUpd m (fun y => ∃ j c, J j ∧ c < C ∧ y = x + (S * j + c)) ∧ ∀ j c, J j → c < C → m.cell (x + (S * j + c)) = v j c

section
variable {C S : ℕ} {U x : Ptr} {J J' : ℕ → Prop} {v : ℕ → ℕ → ℂ} {u : ℕ → ℕ → ℝ} {mem0 m : Mem} {Q : Unit → Mem → Prop}

theorem WRows.start : WRows C S U (fun _ => False) v mem0 mem0 := ⟨Mem.Upd.refl _ _, fun _ _ h => h.elim⟩
theorem DRows.start : DRows C S x (fun _ => False) u mem0 mem0 := ⟨Mem.DUpd.refl _ _, fun _ _ h => h.elim⟩

theorem WRows.iff (h : WRows C S U J v mem0 m) (e : ∀ j, J j ↔ J' j) : WRows C S U J' v mem0 m := by
  have : J = J' := funext fun j => propext (e j)
  rwa [← this]

theorem DRows.iff (h : DRows C S x J u mem0 m) (e : ∀ j, J j ↔ J' j) : DRows C S x J' u mem0 m := by
  have : J = J' := funext fun j => propext (e j)
  rwa [← this]

theorem WRows.other (h : WRows C S U J v mem0 m) {p : Ptr} (hp : p.buf ≠ U.buf) : m.val p = mem0.val p :=
  h.1.frame p fun ⟨j, c, _, _, e⟩ => hp (by rw [e]; simp)

theorem DRows.other (h : DRows C S x J u mem0 m) {y : Ptr} (hy : y.buf ≠ x.buf) : m.cell y = mem0.cell y :=
  h.1.frame y fun ⟨j, c, _, _, e⟩ => hy (by rw [e]; simp)

theorem wrows_loop {a b : ℕ} {body : ℕ × ℕ → Body Unit} (hCS : C ≤ S) (I : WRows C S U J v mem0 m)
    (hb : ∀ s c, a ≤ s → s < b → c < C → ∀ m1 : Mem, m1.size = mem0.size → (∀ p : Ptr, p.buf ≠ U.buf → m1.val p = mem0.val p) →
      (body (s, c)).Does m1 [(dptr (U + (S * s + c)), (v s c).re), (dptr (U + (S * s + c)) + 1, (v s c).im)] (fun y => y.buf ≠ U.buf))
    (hQ : ∀ m', WRows C S U (fun j => J j ∨ a ≤ j ∧ j < b) v mem0 m' → Q () m') : (parD (rng2 a b 0 C) body).Ok m Q := by
  have hd : ∀ i ∈ rng2 a b 0 C, (body i).Does m [(dptr (U + (S * i.1 + i.2)), (v i.1 i.2).re),
      (dptr (U + (S * i.1 + i.2)) + 1, (v i.1 i.2).im)] (fun y => y.buf ≠ U.buf) := by
    rintro ⟨s, c⟩ hi
    rw [mem_rng20] at hi
    exact hb s c hi.1 hi.2.1 hi.2.2.2 m I.1.size fun p hp => I.other hp
  refine parD_words (fun i => U + (S * i.1 + i.2)) (fun i => v i.1 i.2) (rng2_nodup ..) (fun i hi => (hd i hi).good)
    (fun i hi => (hd i hi).wrs) ?_ ?_ ?_
  · rintro ⟨s, c⟩ hi ⟨s', c'⟩ hi' e
    rw [mem_rng20] at hi hi'
    rw [Ptr.add_inj] at e
    obtain ⟨e1, e2⟩ := radix_inj (lt_of_lt_of_le hi.2.2.2 hCS) (lt_of_lt_of_le hi'.2.2.2 hCS) e
    simp only at e1 e2
    rw [e1, e2]
  · intro i hi j hj _ y hy e
    exact (hd j hj).rds y hy (by have := congrArg Ptr.buf e; simpa [wordOf] using this)
  · intro m' u' e'
    refine hQ m' ⟨?_, ?_⟩
    · refine I.1.trans u' (fun p ⟨j, c, h1, h2, h3⟩ => ⟨j, c, Or.inl h1, h2, h3⟩) ?_
      rintro p ⟨⟨s, c⟩, hi, rfl⟩
      rw [mem_rng20] at hi
      exact ⟨s, c, Or.inr ⟨hi.1, hi.2.1⟩, hi.2.2.2, rfl⟩
    · intro j c hj hc
      by_cases hj' : a ≤ j ∧ j < b
      · exact e' (j, c) (mem_rng20.2 ⟨hj'.1, hj'.2, Nat.zero_le _, hc⟩)
      · rw [u'.frame, I.2 j c (hj.resolve_right hj') hc]
        rintro ⟨⟨s, c'⟩, hi, e⟩
        rw [mem_rng20] at hi
        rw [Ptr.add_inj] at e
        obtain ⟨e1, e2⟩ := radix_inj (lt_of_lt_of_le hc hCS) (lt_of_lt_of_le hi.2.2.2 hCS) e
        subst e1
        exact hj' ⟨hi.1, hi.2.1⟩

theorem drows_loop {a b : ℕ} {body : ℕ × ℕ → Body Unit} (hCS : C ≤ S) (I : DRows C S x J u mem0 m) (js : ℕ → List ℕ)
    (hdis : ∀ s s', a ≤ s → s < b → a ≤ s' → s' < b → ∀ j, j ∈ js s → j ∈ js s' → s = s') (hnd : ∀ s, a ≤ s → s < b → (js s).Nodup)
    (hJ : ∀ s, a ≤ s → s < b → ∀ j ∈ js s, ¬ J j)
    (hb : ∀ s c, a ≤ s → s < b → c < C → ∀ m1 : Mem, m1.size = mem0.size → (∀ y : Ptr, y.buf ≠ x.buf → m1.cell y = mem0.cell y) →
      (∀ j ∈ js s, m1.cell (x + (S * j + c)) = mem0.cell (x + (S * j + c))) →
      (body (s, c)).Does m1 ((js s).map fun j => (x + (S * j + c), u j c)) (fun y => y.buf ≠ x.buf ∨ ∃ j ∈ js s, y = x + (S * j + c)))
    (hQ : ∀ m', DRows C S x (fun j => J j ∨ ∃ s, a ≤ s ∧ s < b ∧ j ∈ js s) u mem0 m' → Q () m') : (parD (rng2 a b 0 C) body).Ok m Q := by
  have hne : ∀ j c j' c', c < C → c' < C → x + (S * j + c) = x + (S * j' + c') → j = j' ∧ c = c' := by
    intro j c j' c' hc hc' e
    rw [Ptr.add_inj] at e
    exact radix_inj (lt_of_lt_of_le hc hCS) (lt_of_lt_of_le hc' hCS) e
  have hd : ∀ i ∈ rng2 a b 0 C, (body i).Does m ((js i.1).map fun j => (x + (S * j + i.2), u j i.2))
      (fun y => y.buf ≠ x.buf ∨ ∃ j ∈ js i.1, y = x + (S * j + i.2)) := by
    rintro ⟨s, c⟩ hi
    rw [mem_rng20] at hi
    refine hb s c hi.1 hi.2.1 hi.2.2.2 m I.1.size (fun y hy => I.other hy) fun j hj => I.1.frame _ ?_
    rintro ⟨j', c', h1, h2, h3⟩
    obtain ⟨rfl, rfl⟩ := hne _ _ _ _ hi.2.2.2 h2 h3
    exact hJ s hi.1 hi.2.1 _ hj h1
  refine parD_list (fun i => (js i.1).map fun j => (x + (S * j + i.2), u j i.2)) (rng2_nodup ..) (fun i hi => (hd i hi).good)
    (fun i hi => (hd i hi).wrs) ?_ ?_ ?_
  · rintro ⟨s, c⟩ hi
    rw [mem_rng20] at hi
    rw [List.map_map]
    refine (hnd s hi.1 hi.2.1).map ?_
    intro j j' e
    exact (hne _ _ _ _ hi.2.2.2 hi.2.2.2 e).1
  · rintro ⟨s, c⟩ hi ⟨s', c'⟩ hi' hne' y hy
    obtain ⟨j, hj, rfl⟩ := List.mem_map.1 hy
    have hi2 := mem_rng20.1 hi
    have hi2' := mem_rng20.1 hi'
    simp only at hj hi2 hi2' ⊢
    have key : ∀ j' ∈ js s', x + (S * j + c) ≠ x + (S * j' + c') := by
      intro j' hj' e
      obtain ⟨rfl, rfl⟩ := hne _ _ _ _ hi2.2.2.2 hi2'.2.2.2 e
      exact hne' (by rw [hdis s s' hi2.1 hi2.2.1 hi2'.1 hi2'.2.1 _ hj hj'])
    refine ⟨fun h => ?_, fun h => ?_⟩
    · rcases (hd _ hi').rds _ h with h | ⟨j', hj', e⟩
      · exact h (by simp)
      · exact key j' hj' e
    · rw [List.map_map] at h
      obtain ⟨j', hj', e⟩ := List.mem_map.1 h
      exact key j' hj' e.symm
  · intro m' u' e'
    refine hQ m' ⟨?_, ?_⟩
    · refine I.1.trans u' (fun p ⟨j, c, h1, h2, h3⟩ => ⟨j, c, Or.inl h1, h2, h3⟩) ?_
      rintro y ⟨⟨s, c⟩, hi, z, hz, rfl⟩
      rw [mem_rng20] at hi
      obtain ⟨j, hj, rfl⟩ := List.mem_map.1 hz
      exact ⟨j, c, Or.inr ⟨s, hi.1, hi.2.1, hj⟩, hi.2.2.2, rfl⟩
    · intro j c hj hc
      by_cases hj' : ∃ s, a ≤ s ∧ s < b ∧ j ∈ js s
      · obtain ⟨s, h1, h2, h3⟩ := hj'
        exact e' (s, c) (mem_rng20.2 ⟨h1, h2, Nat.zero_le _, hc⟩) _ (List.mem_map.2 ⟨j, h3, rfl⟩)
      · rw [u'.frame, I.2 j c (hj.resolve_right hj') hc]
        rintro ⟨⟨s, c'⟩, hi, z, hz, e⟩
        rw [mem_rng20] at hi
        obtain ⟨j', h3, rfl⟩ := List.mem_map.1 hz
        obtain ⟨rfl, rfl⟩ := hne _ _ _ _ hc hi.2.2.2 e
        exact hj' ⟨s, hi.1, hi.2.1, h3⟩

/-- Iteration `s` writes row `s`. -/
theorem drows_loop1 {a b : ℕ} {body : ℕ × ℕ → Body Unit} (hCS : C ≤ S) (I : DRows C S x J u mem0 m)
    (hJ : ∀ s, a ≤ s → s < b → ¬ J s)
    (hb : ∀ s c, a ≤ s → s < b → c < C → ∀ m1 : Mem, m1.size = mem0.size → (∀ y : Ptr, y.buf ≠ x.buf → m1.cell y = mem0.cell y) →
      m1.cell (x + (S * s + c)) = mem0.cell (x + (S * s + c)) →
      (body (s, c)).Does m1 [(x + (S * s + c), u s c)] (fun y => y.buf ≠ x.buf ∨ y = x + (S * s + c)))
    (hQ : ∀ m', DRows C S x (fun j => J j ∨ a ≤ j ∧ j < b) u mem0 m' → Q () m') : (parD (rng2 a b 0 C) body).Ok m Q := by
  refine drows_loop hCS I (fun s => [s]) ?_ (fun s _ _ => by simp) ?_ ?_ ?_
  · intro s s' _ _ _ _ j h1 h2
    simp only [List.mem_singleton] at h1 h2
    omega
  · intro s h1 h2 j hj
    simp only [List.mem_singleton] at hj
    subst hj; exact hJ _ h1 h2
  · intro s c h1 h2 hc m1 hs ho hj
    have := hb s c h1 h2 hc m1 hs ho (hj s (by simp))
    exact ⟨this.good, this.wrs, fun y hy => (this.rds y hy).imp id fun e => ⟨s, by simp, e⟩⟩
  · intro m' h
    refine hQ m' (h.iff fun j => ?_)
    constructor
    · rintro (h | ⟨s, h1, h2, h3⟩)
      · exact Or.inl h
      · simp only [List.mem_singleton] at h3; subst h3; exact Or.inr ⟨h1, h2⟩
    · rintro (h | h)
      · exact Or.inl h
      · exact Or.inr ⟨j, h.1, h.2, by simp⟩

end

/-! ### Loops of the simple variants as loops over pairs -/

theorem parD_first (C : ℕ) (body : ℕ → Body Unit) : parD (rng 0 C) body = parD (rng2 0 1 0 C) (fun x => body x.2) := by
  unfold parD
  congr 1
  have : rng2 0 1 0 C = (rng 0 C).map (fun c => (0, c)) := by
    unfold rng2
    rw [show rng 0 1 = [0] from rfl]
    simp [List.product]
  rw [this, par_mapD _ (fun x y h => by simpa using h)]

theorem runD_first (b : Body Unit) : runD b = parD (rng2 0 1 0 1) (fun _ => b) := by
  rw [runD_eq, parD_first]

end Fftwpp
