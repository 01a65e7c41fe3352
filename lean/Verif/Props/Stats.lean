import Mathlib.Algebra.BigOperators.Group.List.Basic
import Mathlib.Tactic.Ring
import Mathlib.Tactic.Linarith
import Mathlib.Tactic.FieldSimp
import Verif.Model.Stats

/-! # C20: running statistics -/

namespace Fftwpp
namespace Stats

/-- Sum of squared deviations from `a`. -/
def sqdev (a : ℝ) (l : List ℝ) : ℝ := (l.map fun t => (t - a) ^ 2).sum

theorem sqdev_eq (a : ℝ) (l : List ℝ) : sqdev a l = (l.map (· ^ 2)).sum - 2 * a * l.sum + l.length * a ^ 2 := by
  unfold sqdev
  induction l with
  | nil => simp
  | cons t l ih =>
    simp only [List.map_cons, List.sum_cons, List.length_cons, ih]
    push_cast; ring

/-- The two heaps hold the samples `l`, the smaller half in `s`, the greater half in `g`. -/
structure MedInv (l : List ℝ) (s : MaxQ) (g : MinQ) (med : ℝ) : Prop where
  ps : s.Pairwise (· ≥ ·)
  pg : g.Pairwise (· ≤ ·)
  sep : ∀ x ∈ s, ∀ y ∈ g, x ≤ y
  perm : (s ++ g).Perm l
  cases : (s = [] ∧ g = []) ∨ (s.length = g.length + 1 ∧ s.head? = some med) ∨
     (g.length = s.length + 1 ∧ g.head? = some med) ∨
     (s.length = g.length ∧ ∃ a b, s.head? = some a ∧ g.head? = some b ∧ med = (a + b) / 2)

/-- What holds after the samples `l` (the heaps only if the median is computed). -/
structure Inv (DBL_MAX : ℝ) (l : List ℝ) (o : Stats) : Prop where
  cN : o.N = l.length
  cA : o.N * o.A = l.sum
  var : o.varL + o.varH = sqdev o.A l
  cm : (∀ t ∈ l, o.m ≤ t) ∧ (o.m ∈ l ∨ o.m = DBL_MAX)
  cM : (∀ t ∈ l, t ≤ o.M) ∧ (o.M ∈ l ∨ o.M = -DBL_MAX)
  med : o.computeMedian = true → MedInv l o.s o.g o.Median

theorem Inv.zero (D junk : ℝ) (c : Bool) : Inv D [] (init D junk c) :=
  ⟨rfl, by simp [init], by simp [init, sqdev], ⟨by simp, Or.inr rfl⟩, ⟨by simp, Or.inr rfl⟩,
    fun _ => ⟨by simp [init], by simp [init], by simp [init], by simp [init], Or.inl ⟨rfl, rfl⟩⟩⟩

theorem MaxQ.push_spec (s : MaxQ) (t : ℝ) (h : s.Pairwise (· ≥ ·)) :
    ∃ a r, MaxQ.push s t = a :: r ∧ (a :: r).Pairwise (· ≥ ·) ∧ (a :: r).Perm (t :: s) ∧ (a :: r).length = s.length + 1 := by
  have h1 := List.Pairwise.orderedInsert (r := (· ≥ ·)) t s h
  have h2 := List.perm_orderedInsert (· ≥ ·) t s
  have h3 := h2.length_eq
  unfold MaxQ.push
  cases hq : s.orderedInsert (· ≥ ·) t with
  | nil => rw [hq] at h3; simp at h3
  | cons a r =>
    rw [hq] at h1 h2 h3
    exact ⟨a, r, rfl, h1, h2, by simpa using h3⟩

theorem MinQ.push_spec (s : MinQ) (t : ℝ) (h : s.Pairwise (· ≤ ·)) :
    ∃ a r, MinQ.push s t = a :: r ∧ (a :: r).Pairwise (· ≤ ·) ∧ (a :: r).Perm (t :: s) ∧ (a :: r).length = s.length + 1 := by
  have h1 := List.Pairwise.orderedInsert (r := (· ≤ ·)) t s h
  have h2 := List.perm_orderedInsert (· ≤ ·) t s
  have h3 := h2.length_eq
  unfold MinQ.push
  cases hq : s.orderedInsert (· ≤ ·) t with
  | nil => rw [hq] at h3; simp at h3
  | cons a r =>
    rw [hq] at h1 h2 h3
    exact ⟨a, r, rfl, h1, h2, by simpa using h3⟩

theorem half (x : ℝ) : (0.5 : ℝ) * x = x / 2 := by norm_num; ring

theorem perm_push (s g l : List ℝ) (t : ℝ) (h : (s ++ g).Perm l) : (t :: (s ++ g)).Perm (l ++ [t]) :=
  (h.cons t).trans (List.perm_append_singleton t l).symm

theorem addMedian_ok {o : Stats} {l : List ℝ} (t : ℝ) (hN : o.N = l.length + 1) (h : MedInv l o.s o.g o.Median) :
    ∃ s g med, o.addMedian t = some { o with s := s, g := g, Median := med } ∧ MedInv (l ++ [t]) s g med := by
  obtain ⟨ps, pg, sep, perm, cs⟩ := h
  have hlen := perm.length_eq
  rw [List.length_append] at hlen
  unfold addMedian
  by_cases h1 : o.N = 1
  · rw [if_pos h1]
    have hl : l = [] := List.length_eq_zero_iff.1 (by omega)
    have hs : o.s = [] := List.length_eq_zero_iff.1 (by rw [hl] at hlen; simp at hlen; simp [hlen])
    have hg : o.g = [] := List.length_eq_zero_iff.1 (by rw [hl] at hlen; simp at hlen; simp [hlen])
    refine ⟨[t], [], t, ?_, ?_⟩
    · rw [hs]; simp only [hg]; rfl
    · rw [hl]
      exact ⟨by simp, by simp, by simp, by simp, Or.inr (Or.inl ⟨rfl, rfl⟩)⟩
  rw [if_neg h1]
  have hpos : 0 < l.length := by omega
  by_cases h2 : o.g.length < o.s.length
  · rw [if_pos h2]
    obtain ⟨hl1, hd⟩ : o.s.length = o.g.length + 1 ∧ o.s.head? = some o.Median := by
      rcases cs with ⟨a, b⟩ | c | ⟨a, _⟩ | ⟨a, _⟩
      · rw [a, b] at h2; simp at h2
      · exact c
      · omega
      · omega
    obtain ⟨r, hr⟩ : ∃ r, o.s = o.Median :: r := by
      cases hs : o.s with
      | nil => rw [hs] at hd; simp at hd
      | cons a r => rw [hs] at hd; simp at hd; exact ⟨r, by rw [hd]⟩
    rw [hr] at ps sep perm hl1
    have hrm : ∀ x ∈ r, x ≤ o.Median := fun x hx => (List.pairwise_cons.1 ps).1 x hx
    by_cases h3 : t < o.Median
    · rw [if_pos h3, hr]
      obtain ⟨a, s', e1, e2, e3, e4⟩ := MaxQ.push_spec r t (List.pairwise_cons.1 ps).2
      obtain ⟨b, g', f1, f2, f3, f4⟩ := MinQ.push_spec o.g o.Median pg
      simp only [e1, f1]
      have hm1 : ∀ x ∈ a :: s', x ≤ o.Median := by
        intro x hx
        rcases List.mem_cons.1 (e3.mem_iff.1 hx) with rfl | hx
        · exact h3.le
        · exact hrm x hx
      have hm2 : ∀ x ∈ b :: g', o.Median ≤ x := by
        intro x hx
        rcases List.mem_cons.1 (f3.mem_iff.1 hx) with rfl | hx
        · exact le_refl _
        · exact sep _ (by simp) x hx
      refine ⟨a :: s', b :: g', _, rfl, e2, f2, fun x hx y hy => (hm1 x hx).trans (hm2 y hy), ?_, ?_⟩
      · refine (e3.append f3).trans ?_
        refine List.Perm.trans ?_ (perm_push _ _ _ t perm)
        simp only [List.cons_append]
        exact List.Perm.cons _ List.perm_middle
      · refine Or.inr (Or.inr (Or.inr ⟨?_, a, b, rfl, rfl, half _⟩))
        rw [e4, f4]
        simp only [List.length_cons] at hl1; omega
    · rw [if_neg h3]
      obtain ⟨b, g', f1, f2, f3, f4⟩ := MinQ.push_spec o.g t pg
      simp only [f1, hr]
      have hms : ∀ x ∈ o.Median :: r, x ≤ o.Median := by
        intro x hx
        rcases List.mem_cons.1 hx with rfl | hx
        · exact le_refl _
        · exact hrm x hx
      refine ⟨o.Median :: r, b :: g', _, rfl, ps, f2, ?_, ?_, ?_⟩
      · intro x hx y hy
        rcases List.mem_cons.1 (f3.mem_iff.1 hy) with rfl | hy
        · exact (hms x hx).trans (not_lt.1 h3)
        · exact sep x hx y hy
      · refine (List.Perm.append_left _ f3).trans ?_
        exact List.perm_middle.trans (perm_push _ _ _ t perm)
      · refine Or.inr (Or.inr (Or.inr ⟨?_, _, b, rfl, rfl, half _⟩))
        rw [f4, hl1]
  rw [if_neg h2]
  by_cases h4 : o.s.length = o.g.length
  · rw [if_pos h4]
    obtain ⟨a, b, ha, hb, hm⟩ : ∃ a b, o.s.head? = some a ∧ o.g.head? = some b ∧ o.Median = (a + b) / 2 := by
      rcases cs with ⟨a, b⟩ | ⟨c, _⟩ | ⟨a, _⟩ | ⟨a, b⟩
      · rw [a, b] at hlen; simp at hlen; omega
      · omega
      · omega
      · exact b
    obtain ⟨r, hr⟩ : ∃ r, o.s = a :: r := by
      cases hs : o.s with
      | nil => rw [hs] at ha; simp at ha
      | cons a r => rw [hs] at ha; simp at ha; exact ⟨r, by rw [ha]⟩
    obtain ⟨q, hq⟩ : ∃ q, o.g = b :: q := by
      cases hs : o.g with
      | nil => rw [hs] at hb; simp at hb
      | cons a r => rw [hs] at hb; simp at hb; exact ⟨r, by rw [hb]⟩
    have hab : a ≤ b := sep a (by rw [hr]; simp) b (by rw [hq]; simp)
    have hsa : ∀ x ∈ o.s, x ≤ o.Median := by
      intro x hx
      have : x ≤ a := by
        rw [hr] at hx ps
        rcases List.mem_cons.1 hx with rfl | hx
        · exact le_refl _
        · exact (List.pairwise_cons.1 ps).1 x hx
      linarith
    have hga : ∀ x ∈ o.g, o.Median ≤ x := by
      intro x hx
      have : b ≤ x := by
        rw [hq] at hx pg
        rcases List.mem_cons.1 hx with rfl | hx
        · exact le_refl _
        · exact (List.pairwise_cons.1 pg).1 x hx
      linarith
    by_cases h3 : t < o.Median
    · rw [if_pos h3]
      obtain ⟨c, s', e1, e2, e3, e4⟩ := MaxQ.push_spec o.s t ps
      simp only [e1]
      refine ⟨c :: s', o.g, _, rfl, e2, pg, ?_, ?_, ?_⟩
      · intro x hx y hy
        rcases List.mem_cons.1 (e3.mem_iff.1 hx) with rfl | hx
        · exact h3.le.trans (hga y hy)
        · exact sep x hx y hy
      · exact (List.Perm.append_right _ e3).trans (perm_push _ _ _ t perm)
      · exact Or.inr (Or.inl ⟨by rw [e4, h4], rfl⟩)
    · rw [if_neg h3]
      obtain ⟨c, s', e1, e2, e3, e4⟩ := MinQ.push_spec o.g t pg
      simp only [e1]
      refine ⟨o.s, c :: s', _, rfl, ps, e2, ?_, ?_, ?_⟩
      · intro x hx y hy
        rcases List.mem_cons.1 (e3.mem_iff.1 hy) with rfl | hy
        · exact (hsa x hx).trans (not_lt.1 h3)
        · exact sep x hx y hy
      · exact ((List.Perm.append_left _ e3).trans List.perm_middle).trans (perm_push _ _ _ t perm)
      · exact Or.inr (Or.inr (Or.inl ⟨by rw [e4, h4], rfl⟩))
  · rw [if_neg h4]
    obtain ⟨hl1, hd⟩ : o.g.length = o.s.length + 1 ∧ o.g.head? = some o.Median := by
      rcases cs with ⟨a, b⟩ | ⟨c, _⟩ | c | ⟨a, _⟩
      · rw [a, b] at h4; simp at h4
      · omega
      · exact c
      · omega
    obtain ⟨r, hr⟩ : ∃ r, o.g = o.Median :: r := by
      cases hs : o.g with
      | nil => rw [hs] at hd; simp at hd
      | cons a r => rw [hs] at hd; simp at hd; exact ⟨r, by rw [hd]⟩
    rw [hr] at pg sep perm hl1
    have hrm : ∀ x ∈ r, o.Median ≤ x := fun x hx => (List.pairwise_cons.1 pg).1 x hx
    by_cases h3 : o.Median < t
    · rw [if_pos h3, hr]
      obtain ⟨a, s', e1, e2, e3, e4⟩ := MaxQ.push_spec o.s o.Median ps
      obtain ⟨b, g', f1, f2, f3, f4⟩ := MinQ.push_spec r t (List.pairwise_cons.1 pg).2
      simp only [e1, f1]
      have hm2 : ∀ x ∈ b :: g', o.Median ≤ x := by
        intro x hx
        rcases List.mem_cons.1 (f3.mem_iff.1 hx) with rfl | hx
        · exact h3.le
        · exact hrm x hx
      have hm1 : ∀ x ∈ a :: s', x ≤ o.Median := by
        intro x hx
        rcases List.mem_cons.1 (e3.mem_iff.1 hx) with rfl | hx
        · exact le_refl _
        · exact sep x hx _ (by simp)
      refine ⟨a :: s', b :: g', _, rfl, e2, f2, fun x hx y hy => (hm1 x hx).trans (hm2 y hy), ?_, ?_⟩
      · refine (e3.append f3).trans ?_
        refine List.Perm.trans ?_ (perm_push _ _ _ t perm)
        simp only [List.cons_append]
        refine (List.Perm.cons _ List.perm_middle).trans ?_
        refine (List.Perm.swap _ _ _).trans ?_
        exact List.Perm.cons _ List.perm_middle.symm
      · refine Or.inr (Or.inr (Or.inr ⟨?_, a, b, rfl, rfl, half _⟩))
        rw [e4, f4]
        simp only [List.length_cons] at hl1; omega
    · rw [if_neg h3]
      obtain ⟨b, g', f1, f2, f3, f4⟩ := MaxQ.push_spec o.s t ps
      simp only [f1, hr]
      have hms : ∀ x ∈ o.Median :: r, o.Median ≤ x := by
        intro x hx
        rcases List.mem_cons.1 hx with rfl | hx
        · exact le_refl _
        · exact hrm x hx
      refine ⟨b :: g', o.Median :: r, _, rfl, f2, pg, ?_, ?_, ?_⟩
      · intro x hx y hy
        rcases List.mem_cons.1 (f3.mem_iff.1 hx) with rfl | hx
        · exact (not_lt.1 h3).trans (hms y hy)
        · exact sep x hx y hy
      · exact (List.Perm.append_right _ f3).trans (perm_push _ _ _ t perm)
      · refine Or.inr (Or.inr (Or.inr ⟨?_, b, _, rfl, rfl, half _⟩))
        rw [f4, hl1]

theorem add_ok {D : ℝ} {o : Stats} {l : List ℝ} (t : ℝ) (h : Inv D l o) :
    ∃ o', o.add t = some o' ∧ Inv D (l ++ [t]) o' ∧ o'.computeMedian = o.computeMedian := by
  obtain ⟨hN, hA, hv, hm, hM, hmed⟩ := h
  unfold add
  simp only
  have base : ∀ s g med, (o.computeMedian = true → MedInv (l ++ [t]) s g med) →
      Inv D (l ++ [t]) { o with
        N := o.N + 1, A := o.A + (t - o.A) / (o.N + 1 : ℕ)
        varL := if t - o.A < 0 then o.varL + (t - o.A) * (t - (o.A + (t - o.A) / (o.N + 1 : ℕ))) else o.varL
        varH := if t - o.A < 0 then o.varH else o.varH + (t - o.A) * (t - (o.A + (t - o.A) / (o.N + 1 : ℕ)))
        m := if t < o.m then t else o.m
        M := if o.M < t then t else o.M, s := s, g := g, Median := med } := by
    intro s g med hmed'
    have hNp : (o.N : ℝ) + 1 ≠ 0 := by positivity
    have hA' : ((o.N : ℝ) + 1) * (o.A + (t - o.A) / (o.N + 1)) = l.sum + t := by
      rw [← hA]; field_simp; ring
    refine ⟨by simp [hN], ?_, ?_, ?_, ?_, hmed'⟩
    · simp only [List.sum_append, List.sum_singleton]
      push_cast
      exact hA'
    · simp only
      push_cast
      have e : (if t - o.A < 0 then o.varL + (t - o.A) * (t - (o.A + (t - o.A) / (↑o.N + 1))) else o.varL) +
          (if t - o.A < 0 then o.varH else o.varH + (t - o.A) * (t - (o.A + (t - o.A) / (↑o.N + 1)))) =
          (o.varL + o.varH) + (t - o.A) * (t - (o.A + (t - o.A) / (↑o.N + 1))) := by
        split_ifs <;> ring
      rw [e, hv, sqdev_eq, sqdev_eq]
      simp only [List.map_append, List.map_cons, List.map_nil, List.sum_append, List.sum_singleton, List.length_append,
        List.length_singleton, ← hA, ← hN]
      push_cast
      field_simp
      ring
    · simp only
      split_ifs with hc
      · refine ⟨?_, Or.inl (by simp)⟩
        intro x hx
        rcases List.mem_append.1 hx with hx | hx
        · exact hc.le.trans (hm.1 x hx)
        · rw [List.mem_singleton.1 hx]
      · refine ⟨?_, hm.2.imp (fun h => List.mem_append_left _ h) id⟩
        intro x hx
        rcases List.mem_append.1 hx with hx | hx
        · exact hm.1 x hx
        · rw [List.mem_singleton.1 hx]; exact not_lt.1 hc
    · simp only
      split_ifs with hc
      · refine ⟨?_, Or.inl (by simp)⟩
        intro x hx
        rcases List.mem_append.1 hx with hx | hx
        · exact (hM.1 x hx).trans hc.le
        · rw [List.mem_singleton.1 hx]
      · refine ⟨?_, hM.2.imp (fun h => List.mem_append_left _ h) id⟩
        intro x hx
        rcases List.mem_append.1 hx with hx | hx
        · exact hM.1 x hx
        · rw [List.mem_singleton.1 hx]; exact not_lt.1 hc
  by_cases hc : o.computeMedian = true
  · rw [if_pos hc]
    obtain ⟨s, g, med, e, hi⟩ := addMedian_ok (l := l) (o := { o with
        N := o.N + 1, A := o.A + (t - o.A) / (o.N + 1 : ℕ)
        varL := if t - o.A < 0 then o.varL + (t - o.A) * (t - (o.A + (t - o.A) / (o.N + 1 : ℕ))) else o.varL
        varH := if t - o.A < 0 then o.varH else o.varH + (t - o.A) * (t - (o.A + (t - o.A) / (o.N + 1 : ℕ)))
        m := if t < o.m then t else o.m
        M := if o.M < t then t else o.M }) t (by simp [hN]) (hmed hc)
    exact ⟨_, e, base s g med (fun _ => hi), rfl⟩
  · rw [if_neg hc]
    exact ⟨_, rfl, base o.s o.g o.Median (fun h => absurd h hc), rfl⟩

theorem adds_ok {D : ℝ} (l2 : List ℝ) : ∀ {o : Stats} {l : List ℝ}, Inv D l o →
    ∃ o', o.adds l2 = some o' ∧ Inv D (l ++ l2) o' ∧ o'.computeMedian = o.computeMedian := by
  induction l2 with
  | nil => intro o l h; exact ⟨o, rfl, by simpa using h, rfl⟩
  | cons t l2 ih =>
    intro o l h
    obtain ⟨o1, e1, h1, c1⟩ := add_ok t h
    obtain ⟨o2, e2, h2, c2⟩ := ih h1
    refine ⟨o2, ?_, by simpa using h2, c2.trans c1⟩
    simp only [adds, e1]
    exact e2

/-- The middle order statistic of a sorted list (mean of the two middle ones for an even count). -/
noncomputable def middle (l : List ℝ) : ℝ :=
  if l.length % 2 = 1 then l.getD (l.length / 2) 0 else (l.getD (l.length / 2 - 1) 0 + l.getD (l.length / 2) 0) / 2

theorem MedInv.middle {l : List ℝ} {s : MaxQ} {g : MinQ} {med : ℝ} (h : MedInv l s g med) (hl : l ≠ [])
    {l' : List ℝ} (hp : l'.Perm l) (hs : l'.Pairwise (· ≤ ·)) : med = middle l' := by
  obtain ⟨ps, pg, sep, perm, cs⟩ := h
  have hsort : (s.reverse ++ g).Pairwise (· ≤ ·) := by
    rw [List.pairwise_append]
    exact ⟨List.pairwise_reverse.2 ps, pg, fun x hx y hy => sep x (List.mem_reverse.1 hx) y hy⟩
  have hperm : (s.reverse ++ g).Perm l' := ((List.Perm.append_right _ (List.reverse_perm s)).trans perm).trans hp.symm
  have he : s.reverse ++ g = l' := hperm.eq_of_pairwise' hsort hs
  subst he
  unfold Stats.middle
  have hrev : ∀ a, s.head? = some a → ∀ k, k = s.length - 1 → (s.reverse ++ g).getD k 0 = a ∧ 0 < s.length := by
    intro a ha k hk
    cases s with
    | nil => simp at ha
    | cons b r =>
      simp only [List.head?_cons, Option.some.injEq] at ha
      subst ha
      simp only [List.length_cons, Nat.add_sub_cancel] at hk
      subst hk
      simp [List.getD_eq_getElem?_getD]
  have hgd : ∀ a, g.head? = some a → ∀ k, k = s.length → (s.reverse ++ g).getD k 0 = a := by
    intro a ha k hk
    cases g with
    | nil => simp at ha
    | cons b r =>
      simp only [List.head?_cons, Option.some.injEq] at ha
      subst ha hk
      simp [List.getD_eq_getElem?_getD]
  have hlen : (s.reverse ++ g).length = s.length + g.length := by simp
  rw [hlen]
  rcases cs with ⟨a, b⟩ | ⟨c, d⟩ | ⟨c, d⟩ | ⟨c, a, b, ha, hb, hm⟩
  · rw [a, b] at perm
    exact absurd (List.nil_perm.1 perm) hl
  · rw [if_pos (by omega), (hrev med d _ (by omega)).1]
  · rw [if_pos (by omega), hgd med d _ (by omega)]
  · rw [if_neg (by omega), (hrev a ha _ (by omega)).1, hgd b hb _ (by omega), hm]

/-- **C20.** For every sequence `l` of samples in the range of `double`, the calls `add(t)`, `t ∈ l`, run without undefined
behaviour and then `count()`, `sum()`, `mean()`, `min()`, `max()` are those of the sequence, `varL+varH` is the sum of
squared deviations from the mean, `stdev()` is the sample standard deviation, and `median()` is the middle element of
the sorted sequence (the mean of the two middle ones for an even count).  `junk` is the indeterminate value of `Median`
before the first sample; taking it to be the value left by earlier samples gives the statement after `clear()`. -/
theorem C20_statistics {DBL_MAX junk : ℝ} {c : Bool} {l : List ℝ} (hl : ∀ t ∈ l, |t| ≤ DBL_MAX) (hne : l ≠ []) :
    ∃ o, (init DBL_MAX junk c).adds l = some o ∧ o.count = l.length ∧ o.sum = l.sum ∧ o.mean = l.sum / l.length ∧
      IsLeast {t | t ∈ l} o.min ∧ IsGreatest {t | t ∈ l} o.max ∧
      o.varL + o.varH = (l.map fun t => (t - o.mean) ^ 2).sum ∧
      (2 ≤ l.length → o.stdev DBL_MAX = Real.sqrt ((l.map fun t => (t - o.mean) ^ 2).sum / (l.length - 1))) ∧
      (c = true → ∀ l', l'.Perm l → l'.Pairwise (· ≤ ·) → o.median = some (middle l')) := by
  obtain ⟨o, e, h, hc⟩ := adds_ok (D := DBL_MAX) l (Inv.zero DBL_MAX junk c)
  rw [List.nil_append] at h
  have hpos : 0 < l.length := List.length_pos_iff.2 hne
  have hN : (o.N : ℝ) = l.length := by rw [h.cN]
  refine ⟨o, e, hN, h.cA, ?_, ⟨?_, fun t ht => h.cm.1 t ht⟩, ⟨?_, fun t ht => h.cM.1 t ht⟩, h.var, ?_, ?_⟩
  · have : (l.length : ℝ) ≠ 0 := by positivity
    rw [eq_div_iff this, mul_comm, ← hN]
    exact h.cA
  · obtain ⟨t, ht⟩ := List.exists_mem_of_ne_nil l hne
    rcases h.cm.2 with h1 | h1
    · exact h1
    · have h2 := h.cm.1 t ht
      have h3 := (abs_le.1 (hl t ht)).2
      have : o.m = t := by rw [h1] at h2 ⊢; linarith
      show o.m ∈ l
      rw [this]; exact ht
  · obtain ⟨t, ht⟩ := List.exists_mem_of_ne_nil l hne
    rcases h.cM.2 with h1 | h1
    · exact h1
    · have h2 := h.cM.1 t ht
      have h3 := (abs_le.1 (hl t ht)).1
      have : o.M = t := by rw [h1] at h2 ⊢; linarith
      show o.M ∈ l
      rw [this]; exact ht
  · intro h2
    unfold stdev stdevOf
    have : (2 : ℝ) ≤ l.length := by exact_mod_cast h2
    rw [if_neg (by rw [hN]; linarith), h.var, hN, mul_one]
    rfl
  · intro hc1 l' hp hs
    have hcm : o.computeMedian = true := hc.trans hc1
    unfold median
    rw [if_pos hcm, (h.med hcm).middle hne hp hs]

example : ∀ t ∈ [(3 : ℝ), 1, 2, 2], |t| ≤ 5 := by
  intro t ht
  simp only [List.mem_cons, List.not_mem_nil, or_false] at ht
  rcases ht with rfl | rfl | rfl | rfl <;> norm_num [abs_le]

end Stats
end Fftwpp
