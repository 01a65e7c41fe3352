import Verif.Model.Opt
import Verif.Props.Utils

/-! Lemmas about the optimizer. -/

namespace Fftwpp.Opt
open Utils

/-- A choice of parameters that the user's settings allow and the class accepts. -/
structure Choice (c : Cfg) (app : OApp) (M : ℕ) (Explicit : Bool) (m D : ℕ) (inplace : Bool) : Prop where
  m_pos : 1 ≤ m
  D_pos : 1 ≤ D
  valid : c.kind.valid m (parameters c.L M m c.kind.isCentered).1 (parameters c.L M m c.kind.isCentered).2.2
    (parameters c.L M m c.kind.isCentered).2.1 D c.S = true
  mF : Explicit = false → 1 ≤ app.m → m = app.m
  DF : 0 < app.D → D = app.D
  IF : ∀ I, app.I = some I → inplace = (I != 0)

/-- The sizes with more than two blocks that the centered classes accept. -/
def POk (c : Cfg) (m : ℕ) : Prop := c.kind.isCentered = true → 2 < ceilquotient c.L m → ceilquotient c.L m % 2 = 0

structure Inv (c : Cfg) (app : OApp) (M : ℕ) (Explicit ut : Bool) (s : St) : Prop where
  choice : Choice c app M Explicit s.m s.D s.inplace ∨ (s.m = M ∧ s.D = 1 ∧ s.inplace = false)
  ml : ∀ r ∈ s.mlist, (1 ≤ r ∧ POk c r) ∧ (Explicit = false → 1 ≤ app.m → r = app.m)
  le : ∀ e ∈ s.log, s.T ≤ e.2.2.2
  best : s.T = DBL_MAX ∨ (s.m, s.D, s.inplace, s.T) ∈ s.log
  log : ∀ e ∈ s.log, Choice c app M Explicit e.1 e.2.1 e.2.2.1
  first : ut = false → s.T = DBL_MAX
  cnt : 0 < s.counter → Choice c app M Explicit s.m s.D s.inplace
  mlne : c.back = 0 → 0 < s.counter → s.mlist ≠ []

theorem cq_pos {a b : ℕ} (ha : 1 ≤ a) (hb : 1 ≤ b) : 1 ≤ ceilquotient a b := by
  unfold ceilquotient
  exact Nat.div_pos (by omega) (by omega)

theorem cq_le {a b : ℕ} (ha : 1 ≤ a) (hb : 1 ≤ b) : ceilquotient a b ≤ a := by
  unfold ceilquotient
  apply Nat.div_le_of_le_mul
  nlinarith [Nat.sub_add_cancel (show 1 ≤ a + b by omega), Nat.mul_le_mul hb ha]

theorem cq_one {a b : ℕ} (ha : 1 ≤ a) (hab : a ≤ b) : ceilquotient a b = 1 := by
  unfold ceilquotient
  rw [Nat.div_eq_iff (by omega)]
  omega

theorem parameters_explicit {L M m : ℕ} {cen : Bool} (hL : 1 ≤ L) (hLM : L ≤ M) (hm : M ≤ m) : parameters L M m cen = (1, 1, 1) := by
  unfold parameters
  simp only
  rw [cq_one hL (by omega)]
  simp [cq_one (show 1 ≤ M by omega) hm]

theorem n_pos {L M m : ℕ} {cen : Bool} (hL : 1 ≤ L) (hM : 1 ≤ M) (hm : 1 ≤ m) : 1 ≤ (parameters L M m cen).2.1 := by
  unfold parameters
  simp only
  have hp := cq_pos hL hm
  apply cq_pos hM
  apply Nat.mul_pos _ hm
  split_ifs <;> omega

variable {c : Cfg} {app : OApp} {M : ℕ} {Explicit ut : Bool}

theorem check_ok {M' m p q n D : ℕ} {inplace : Bool} {s : St} (hI : Inv c app M Explicit ut s) (hL : c.L ≤ M') (hS : c.C ≤ c.S)
    (hm : 1 ≤ m) (hpk : POk c m) (hmF : Explicit = false → 1 ≤ app.m → m = app.m)
    (hc : c.kind.valid m p q n D c.S = true → Choice c app M Explicit m D inplace) :
    ∃ s', check c M' m p q n D inplace ut s = some s' ∧ Inv c app M Explicit ut s' := by
  unfold check
  by_cases hv : c.kind.valid m p q n D c.S = true
  · rw [if_pos hv]
    have hch := hc hv
    cases ut with
    | true =>
      simp only [if_true]
      have ht : time c M' m p q n D s = some (c.times s.log.length) := by
        unfold time
        rw [if_neg]
        rintro (h | h | ⟨_, h⟩)
        · omega
        · omega
        · rw [hv] at h; simp at h
      rw [ht]
      generalize c.times s.log.length = t
      simp only [Option.bind_eq_bind, Option.bind_some]
      by_cases htT : t < s.T
      · rw [if_pos htT]
        refine ⟨_, rfl, Or.inl hch, hI.ml, ?_, Or.inr (by simp), ?_, by simp, fun _ => hch, hI.mlne⟩
        · intro e he
          rcases List.mem_append.1 he with he | he
          · exact le_trans htT.le (hI.le e he)
          · rw [List.mem_singleton.1 he]
        · intro e he
          rcases List.mem_append.1 he with he | he
          · exact hI.log e he
          · rw [List.mem_singleton.1 he]; exact hch
      · rw [if_neg htT]
        refine ⟨_, rfl, hI.choice, hI.ml, ?_, ?_, ?_, by simp, hI.cnt, hI.mlne⟩
        · intro e he
          rcases List.mem_append.1 he with he | he
          · exact hI.le e he
          · rw [List.mem_singleton.1 he]; exact not_lt.1 htT
        · rcases hI.best with h | h
          · exact Or.inl h
          · exact Or.inr (List.mem_append_left _ h)
        · intro e he
          rcases List.mem_append.1 he with he | he
          · exact hI.log e he
          · rw [List.mem_singleton.1 he]; exact hch
    | false =>
      simp only [Bool.false_eq_true, if_false]
      have hT := hI.first rfl
      have hml : ∀ r ∈ s.mlist ++ [m], (1 ≤ r ∧ POk c r) ∧ (Explicit = false → 1 ≤ app.m → r = app.m) := by
        intro r hr
        rcases List.mem_append.1 hr with hr | hr
        · exact hI.ml r hr
        · rw [List.mem_singleton.1 hr]; exact ⟨⟨hm, hpk⟩, hmF⟩
      have hne : ¬ (m ≠ (s.mlist.getLast?).getD c.back) → c.back = 0 → s.mlist ≠ [] := by
        intro h hb he
        rw [he] at h
        simp [hb] at h
        omega
      split_ifs with h1 h2 h2
      · exact ⟨_, rfl, Or.inl hch, hml, hI.le, Or.inl hT, hI.log, fun _ => hT, fun _ => hch, fun _ _ => by simp⟩
      · exact ⟨_, rfl, hI.choice, hml, hI.le, hI.best, hI.log, fun _ => hT, fun _ => hI.cnt (by simp only at h2; omega), fun _ _ => by simp⟩
      · exact ⟨_, rfl, Or.inl hch, hI.ml, hI.le, Or.inl hT, hI.log, fun _ => hT, fun _ => hch, fun hb _ => hne h1 hb⟩
      · exact ⟨_, rfl, hI.choice, hI.ml, hI.le, hI.best, hI.log, fun _ => hT, fun _ => hI.cnt (by simp only at h2; omega), fun hb _ => hne h1 hb⟩
  · rw [if_neg hv]
    exact ⟨s, rfl, hI⟩

theorem loopI_ok {I : St → Prop} {body : Bool → St → Option St} {a b : ℕ}
    (hb : ∀ i s, a ≤ i → i < b → I s → ∃ s', body (i != 0) s = some s' ∧ I s') (s : St) (hs : I s) :
    ∃ s', loopI body a b s = some s' ∧ I s' := by
  unfold loopI
  have : ∀ (l : List ℕ) (s : St), (∀ i ∈ l, a ≤ i ∧ i < b) → I s → ∃ s', l.foldlM (fun s i => body (i != 0) s) s = some s' ∧ I s' := by
    intro l
    induction l with
    | nil => intro s _ hs; exact ⟨s, rfl, hs⟩
    | cons i l ih =>
      intro s hl hs
      obtain ⟨s1, h1, h2⟩ := hb i s (hl i (by simp)).1 (hl i (by simp)).2 hs
      obtain ⟨s2, h3, h4⟩ := ih s1 (fun j hj => hl j (by simp [hj])) h2
      refine ⟨s2, ?_, h4⟩
      rw [List.foldlM_cons, h1]
      exact h3
  refine this _ s ?_ hs
  intro i hi
  rw [List.mem_range'_1] at hi
  omega

theorem loopD_ok {I : St → Prop} {body : ℕ → St → Option St} {Dstart Dstop : ℕ} (h1 : 1 ≤ Dstart) (h2 : Dstart ≤ Dstop)
    (hb : ∀ D s, Dstart ≤ D → D ≤ Dstop → I s → ∃ s', body D s = some s' ∧ I s') :
    ∀ (k D : ℕ) (s : St), 2 * Dstop - D ≤ k → Dstart ≤ D → I s → ∃ s', loopD Dstop body D s = some s' ∧ I s' := by
  intro k
  induction k with
  | zero =>
    intro D s hk hD hs
    rw [loopD, if_neg (by omega)]
    exact ⟨s, rfl, hs⟩
  | succ k ih =>
    intro D s hk hD hs
    rw [loopD]
    by_cases h : D < 2 * Dstop
    · rw [if_pos h]
      simp only
      by_cases h' : Dstop < D
      · rw [if_pos h']
        obtain ⟨s1, e1, i1⟩ := hb Dstop s h2 le_rfl hs
        rw [e1]
        simp only [Option.bind_eq_bind, Option.bind_some]
        exact ih _ s1 (by omega) (by omega) i1
      · rw [if_neg h']
        obtain ⟨s1, e1, i1⟩ := hb D s hD (by omega) hs
        rw [e1]
        simp only [Option.bind_eq_bind, Option.bind_some]
        exact ih _ s1 (by omega) (by omega) i1
    · rw [if_neg h]
      exact ⟨s, rfl, hs⟩

theorem maxD_pos (k : Kind) {n : ℕ} (h : 1 ≤ n) : 1 ≤ k.maxD n := by
  cases k <;> simp only [Kind.maxD]
  · exact h
  · exact h
  · exact h
  · split_ifs <;> omega

/-- What the loops need to know of the surroundings. -/
structure Env (c : Cfg) (M M' : ℕ) (Explicit : Bool) : Prop where
  L : 1 ≤ c.L
  LM : c.L ≤ M
  S : c.C ≤ c.S
  MM : Explicit = false → M' = M
  MM' : M ≤ M'

/-- All the checks for one value of `m`. -/
theorem checks_ok {M' m : ℕ} (he : Env c M M' Explicit) (hm : 1 ≤ m) (hpk : POk c m) (hmF : Explicit = false → 1 ≤ app.m → m = app.m)
    (hmM : M' = M ∨ M' ≤ m) {app' : OApp} (hD : app'.D = app.D) (hI : app'.I = app.I) {s : St} (hs : Inv c app M Explicit ut s) :
    ∃ s', checks c app' M' m (parameters c.L M' m c.kind.isCentered).1 (parameters c.L M' m c.kind.isCentered).2.2
      (parameters c.L M' m c.kind.isCentered).2.1 ut s = some s' ∧ Inv c app M Explicit ut s' := by
  have hL := he.L
  have hLM := he.LM
  have hMM' := he.MM'
  unfold checks
  simp only [hD]
  refine loopD_ok (I := Inv c app M Explicit ut) (Dstart := if 0 < app.D then app.D else 1) ?_ ?_ ?_ _ _ s le_rfl le_rfl hs
  · split_ifs <;> omega
  · split_ifs
    · exact le_rfl
    · exact maxD_pos _ (n_pos hL (by omega) hm)
  · intro D s h1 h2 hs
    refine loopI_ok (I := Inv c app M Explicit ut) ?_ s hs
    intro i s hi1 hi2 hs
    refine check_ok hs (by omega) he.S hm hpk hmF ?_
    intro hv
    refine ⟨hm, ?_, ?_, hmF, ?_, ?_⟩
    · split_ifs at h1 <;> omega
    · rcases hmM with rfl | h
      · exact hv
      · rw [parameters_explicit hL (by omega) h] at hv
        rw [parameters_explicit hL (by omega) (by omega)]
        exact hv
    · intro h
      rw [if_pos h] at h1 h2
      omega
    · intro I hI'
      unfold istart at hi1
      unfold istop at hi2
      rw [hI, hI'] at hi1 hi2
      simp only at hi1 hi2
      rw [show i = I by omega]

theorem cq_le_two {a b : ℕ} (h : a ≤ 2 * b) (hb : 1 ≤ b) : ¬ 2 < ceilquotient a b := by
  unfold ceilquotient
  rw [not_lt]
  apply Nat.le_of_lt_succ
  rw [Nat.div_lt_iff_lt_mul (by omega)]
  omega

theorem le_of_cq {a b : ℕ} (hb : 1 ≤ b) (h : ¬ 2 < ceilquotient a b) : a ≤ 2 * b := by
  unfold ceilquotient at h
  rw [not_lt] at h
  have := Nat.lt_succ_of_le h
  rw [Nat.succ_eq_add_one, Nat.div_lt_iff_lt_mul (by omega)] at this
  omega

theorem pOk_half {m : ℕ} (h : c.L ≤ 2 * m) (hm : 1 ≤ m) : POk c m := fun _ h2 => absurd h2 (cq_le_two h hm)

theorem nextfft_ok {x k : ℕ} (h1 : 1 ≤ x) (hx : x ≤ 2 ^ k) (hk : k ≤ 61) : ∃ y, nextfftsize x = some y ∧ x ≤ y ∧ y ≤ 2 ^ k := by
  obtain ⟨y, h, hl⟩ := C03_nextfftsize h1 (hx.trans (Nat.pow_le_pow_right (by norm_num) hk))
  exact ⟨y, h, hl.1.2, hl.2 ⟨⟨k, 0, 0, 0, by simp⟩, hx⟩⟩

/-- The loop when the inner transforms have at most two blocks. -/
theorem optwhile_outer {M' itmax : ℕ} {app' : OApp} {mForced : Bool} (he : Env c M M' Explicit) (hD : app'.D = app.D) (hI : app'.I = app.I)
    (hml : mForced = false → Explicit = false → ¬ 1 ≤ app.m) {k : ℕ} (hk : mForced = true ∨ k ≤ 32) {nx : ℕ → Option ℕ} :
    ∀ (d i m : ℕ) (s : St), itmax - i ≤ d → 1 ≤ m → (mForced = true ∨ m ≤ 2 ^ k) → (Explicit = false → 1 ≤ app.m → m = app.m) →
      (M' = M ∨ M' ≤ m) → c.L ≤ 2 * m → Inv c app M Explicit ut s →
      ∃ m' s', optwhile c app' mForced M' itmax ut false nx i m s = some (m', s') ∧ m ≤ m' ∧ (mForced = true ∨ m' ≤ 2 ^ (k + 1)) ∧
        Inv c app M Explicit ut s' := by
  have hkk : 2 ^ k ≤ 2 ^ (k + 1) := Nat.pow_le_pow_right (by norm_num) (by omega)
  intro d
  induction d with
  | zero =>
    intro i m s hd hm1 hm2 _ _ _ hs
    rw [optwhile, if_neg (by omega)]
    exact ⟨m, s, rfl, le_rfl, hm2.imp id (fun h => h.trans hkk), hs⟩
  | succ d ih =>
    intro i m s hd hm1 hm2 hmF hmM hLm hs
    rw [optwhile]
    by_cases hi : i < itmax
    · rw [if_pos hi, if_neg (by have := he.L; omega)]
      simp only [Bool.false_eq_true, if_false, Option.bind_eq_bind, Option.bind_some]
      obtain ⟨s1, e1, i1⟩ := checks_ok (ut := ut) he hm1 (pOk_half hLm hm1) hmF hmM hD hI hs
      rw [e1]
      simp only [Option.bind_some]
      by_cases hF : mForced = true
      · rw [if_pos hF]
        exact ⟨m, s1, rfl, le_rfl, Or.inl hF, i1⟩
      · rw [if_neg hF]
        have hF' : mForced = false := by simpa using hF
        have hm3 : m ≤ 2 ^ k := hm2.resolve_left hF
        have hk' : k ≤ 32 := hk.resolve_left hF
        obtain ⟨b, hb, hb'⟩ := C04_ispure hm1 (hm3.trans (Nat.pow_le_pow_right (by norm_num) hk'))
        rw [hb]
        simp only [Option.bind_some]
        have hnm : ∀ y, m + 1 ≤ y → (Explicit = false → 1 ≤ app.m → y = app.m) := fun y _ h1 h2 => absurd h2 (hml hF' h1)
        by_cases hbt : b = true
        · rw [if_pos hbt]
          obtain ⟨y, hy, h1, h2⟩ := nextfft_ok (x := m + 1) (k := k + 1) (by omega) (by rw [pow_succ]; omega) (by omega)
          rw [hy]
          exact ⟨y, s1, rfl, by omega, Or.inr h2, i1⟩
        · rw [if_neg hbt]
          have hne : m ≠ 2 ^ k := by
            intro h
            exact hbt (hb'.2 ⟨k, Or.inl h⟩)
          by_cases hi2 : i + 1 < itmax
          · rw [if_pos hi2]
            obtain ⟨y, hy, h1, h2⟩ := nextfft_ok (x := m + 1) (k := k) (by omega) (by omega) (by omega)
            rw [hy]
            simp only [Option.bind_some]
            obtain ⟨m', s', e2, l2, b2, i2⟩ := ih (i + 1) y s1 (by omega) (by omega) (Or.inr h2) (hnm y h1)
              (hmM.imp id (fun h => by omega)) (by omega) i1
            exact ⟨m', s', e2, by omega, b2, i2⟩
          · rw [if_neg hi2]
            simp only [Option.bind_some]
            exact ih (i + 1) m s1 (by omega) hm1 hm2 hmF hmM hLm i1
    · rw [if_neg hi]
      exact ⟨m, s, rfl, le_rfl, hm2.imp id (fun h => h.trans hkk), hs⟩

/-- The loop over inner transforms, not forced. -/
theorem optwhile_inner {M' itmax : ℕ} {app' : OApp} (he : Env c M M' Explicit) (hD : app'.D = app.D) (hI : app'.I = app.I)
    (hml : Explicit = false → ¬ 1 ≤ app.m) (hLb : c.L ≤ 2 ^ 32) (hit : itmax ≤ 2 ^ 31) {nx : ℕ → Option ℕ}
    (hnx : ∀ x, 1 ≤ x → x ≤ 2 ^ 31 → ∃ y, nx x = some y ∧ x ≤ y) :
    ∀ (d m : ℕ) (s : St), itmax - m ≤ d → 1 ≤ m → (M' = M ∨ M' ≤ m) → Inv c app M Explicit ut s →
      ∃ m' s', optwhile c app' false M' itmax ut true nx m m s = some (m', s') ∧ Inv c app M Explicit ut s' := by
  intro d
  induction d with
  | zero =>
    intro m s hd hm1 _ hs
    rw [optwhile, if_neg (by omega)]
    exact ⟨m, s, rfl, hs⟩
  | succ d ih =>
    intro m s hd hm1 hmM hs
    rw [optwhile]
    by_cases hi : m < itmax
    · rw [if_pos hi, if_neg (by have := he.L; omega)]
      have hp1 : 1 ≤ (parameters c.L M' m c.kind.isCentered).1 := cq_pos he.L hm1
      have hp2 : (parameters c.L M' m c.kind.isCentered).1 ≤ 2 ^ 32 := (cq_le he.L hm1).trans hLb
      obtain ⟨b, hb, -⟩ := C04_ispure hp1 hp2
      obtain ⟨y, hy, hyl⟩ := hnx (m + 1) (by omega) (by omega)
      simp only [if_true, hb, Option.bind_eq_bind, Option.bind_some, hy]
      have hmF : ∀ m, Explicit = false → 1 ≤ app.m → m = app.m := fun _ h1 h2 => absurd h2 (hml h1)
      split_ifs with hsk h2
      · exact ih y s (by omega) (by omega) (hmM.imp id (fun h => by omega)) hs
      · simp at h2
      · obtain ⟨s1, e1, i1⟩ := checks_ok (ut := ut) he hm1 (by
            intro hc _
            have : (parameters c.L M' m c.kind.isCentered).1 = ceilquotient c.L m := rfl
            rw [this, hc] at hsk
            simp only [Bool.or_eq_true, not_or, Bool.and_eq_true, true_and, bne_iff_ne, ne_eq, not_not] at hsk
            exact hsk.2) (hmF m) hmM hD hI hs
        rw [e1]
        simp only [Option.bind_some]
        exact ih y s1 (by omega) (by omega) (hmM.imp id (fun h => by omega)) i1
    · rw [if_neg hi]
      exact ⟨m, s, rfl, hs⟩

/-- The loop over inner transforms, with a forced size. -/
theorem optwhile_forced {M' m : ℕ} {app' : OApp} (he : Env c M M' Explicit) (hD : app'.D = app.D) (hI : app'.I = app.I)
    (hLb : c.L ≤ 2 ^ 32) {nx : ℕ → Option ℕ} (hnx : ∃ y, nx (m + 1) = some y ∧ m + 1 ≤ y) (hm1 : 1 ≤ m)
    (hmF : Explicit = false → 1 ≤ app.m → m = app.m) (hmM : M' = M ∨ M' ≤ m) {s : St} (hs : Inv c app M Explicit ut s) :
      ∃ m' s', optwhile c app' true M' (m + 1) ut true nx m m s = some (m', s') ∧ Inv c app M Explicit ut s' := by
  rw [optwhile]
  rw [if_pos (by omega), if_neg (by have := he.L; omega)]
  have hp1 : 1 ≤ (parameters c.L M' m c.kind.isCentered).1 := cq_pos he.L hm1
  have hp2 : (parameters c.L M' m c.kind.isCentered).1 ≤ 2 ^ 32 := (cq_le he.L hm1).trans hLb
  obtain ⟨b, hb, -⟩ := C04_ispure hp1 hp2
  obtain ⟨y, hy, hyl⟩ := hnx
  simp only [if_true, hb, Option.bind_eq_bind, Option.bind_some, hy]
  split_ifs with hsk
  · rw [optwhile, if_neg (by omega)]
    exact ⟨_, _, rfl, hs⟩
  · obtain ⟨s1, e1, i1⟩ := checks_ok (ut := ut) he hm1 (by
            intro hc _
            have : (parameters c.L M' m c.kind.isCentered).1 = ceilquotient c.L m := rfl
            rw [this, hc] at hsk
            simp only [Bool.or_eq_true, not_or, Bool.and_eq_true, true_and, bne_iff_ne, ne_eq, not_not] at hsk
            exact hsk.2) hmF hmM hD hI hs
    rw [e1]
    exact ⟨_, _, rfl, i1⟩

/-- The values of `D` that the loop visits: doubling from 1 up to the largest one, which is visited too; or the forced one. -/
def TriedD (c : Cfg) (app : OApp) (n D : ℕ) : Prop :=
  if 0 < app.D then D = app.D else (∃ k, D = 2 ^ k ∧ D ≤ c.kind.maxD n) ∨ D = c.kind.maxD n

/-- The values of `inplace` that the loop visits: the forced one, or both unless several copies of complex data are transformed
(then in place only). -/
def TriedI (c : Cfg) (app : OApp) (inplace : Bool) : Prop :=
  match app.I with
  | none => inplace = true ∨ c.C ≤ 1 ∨ c.kind = .real
  | some I => inplace = (I != 0)

/-- Transition of the timing phase. -/
structure Ext (s s' : St) : Prop where
  mlist : s'.mlist = s.mlist
  counter : s'.counter = s.counter
  log : ∀ e ∈ s.log, e ∈ s'.log

theorem Ext.refl (s : St) : Ext s s := ⟨rfl, rfl, fun _ h => h⟩

theorem Ext.trans {s1 s2 s3 : St} (h : Ext s1 s2) (h' : Ext s2 s3) : Ext s1 s3 :=
  ⟨h'.mlist.trans h.mlist, h'.counter.trans h.counter, fun e he => h'.log e (h.log e he)⟩

theorem check_timed {M' m p q n D : ℕ} {inplace : Bool} {s s' : St} (h : check c M' m p q n D inplace true s = some s') :
    Ext s s' ∧ (c.kind.valid m p q n D c.S = true → ∃ t, (m, D, inplace, t) ∈ s'.log) := by
  unfold check at h
  by_cases hv : c.kind.valid m p q n D c.S = true
  · rw [if_pos hv] at h
    simp only [if_true] at h
    cases ht : time c M' m p q n D s with
    | none => rw [ht] at h; simp at h
    | some t =>
      rw [ht] at h
      simp only [Option.bind_eq_bind, Option.bind_some] at h
      split_ifs at h
      all_goals
        obtain rfl := Option.some.inj h
        exact ⟨⟨rfl, rfl, fun e he => List.mem_append_left _ he⟩, fun _ => ⟨t, by simp⟩⟩
  · rw [if_neg hv] at h
    obtain rfl := Option.some.inj h
    exact ⟨Ext.refl _, fun h => absurd h hv⟩

/-- Loops whose body extends the log. -/
theorem loopI_timed {body : Bool → St → Option St} {a b : ℕ} {P : Bool → St → Prop} (hP : ∀ i s s', Ext s s' → P i s → P i s')
    (hb : ∀ i s s', body i s = some s' → Ext s s' ∧ P i s') {s s' : St} (h : loopI body a b s = some s') :
    Ext s s' ∧ ∀ i, a ≤ i → i < b → P (i != 0) s' := by
  unfold loopI at h
  have : ∀ (l : List ℕ) (s s' : St), l.foldlM (fun s i => body (i != 0) s) s = some s' → Ext s s' ∧ ∀ i ∈ l, P (i != 0) s' := by
    intro l
    induction l with
    | nil =>
      intro s s' h
      obtain rfl := Option.some.inj h
      exact ⟨Ext.refl _, by simp⟩
    | cons i l ih =>
      intro s s' h
      rw [List.foldlM_cons] at h
      cases h1 : body (i != 0) s with
      | none => rw [h1] at h; simp at h
      | some s1 =>
        rw [h1] at h
        obtain ⟨x1, p1⟩ := hb _ _ _ h1
        obtain ⟨x2, p2⟩ := ih s1 s' h
        refine ⟨x1.trans x2, ?_⟩
        intro j hj
        rcases List.mem_cons.1 hj with rfl | hj
        · exact hP _ _ _ x2 p1
        · exact p2 j hj
  obtain ⟨x, p⟩ := this _ s s' h
  exact ⟨x, fun i h1 h2 => p i (by rw [List.mem_range'_1]; omega)⟩

theorem loopD_timed {body : ℕ → St → Option St} {Dstop : ℕ} {P : ℕ → St → Prop} (hP : ∀ i s s', Ext s s' → P i s → P i s')
    (hb : ∀ i s s', body i s = some s' → Ext s s' ∧ P i s') :
    ∀ (j D : ℕ) (s s' : St), 2 * Dstop - D ≤ j → 1 ≤ D → loopD Dstop body D s = some s' →
      Ext s s' ∧ (∀ k, 2 ^ k * D ≤ Dstop → P (2 ^ k * D) s') ∧ (D < 2 * Dstop → P Dstop s') := by
  intro j
  induction j with
  | zero =>
    intro D s s' hj hD h
    rw [loopD, if_neg (by omega)] at h
    obtain rfl := Option.some.inj h
    refine ⟨Ext.refl _, ?_, by omega⟩
    intro k hk
    have := Nat.mul_le_mul (Nat.one_le_two_pow (n := k)) (le_refl D)
    omega
  | succ j ih =>
    intro D s s' hj hD h
    rw [loopD] at h
    by_cases hlt : D < 2 * Dstop
    · rw [if_pos hlt] at h
      simp only at h
      by_cases h' : Dstop < D
      · rw [if_pos h'] at h
        cases h1 : body Dstop s with
        | none => rw [h1] at h; simp at h
        | some s1 =>
          rw [h1] at h
          obtain ⟨x1, p1⟩ := hb _ _ _ h1
          obtain ⟨x2, -, -⟩ := ih (2 * Dstop) s1 s' (by omega) (by omega) h
          refine ⟨x1.trans x2, ?_, fun _ => hP _ _ _ x2 p1⟩
          intro k hk
          have := Nat.mul_le_mul (Nat.one_le_two_pow (n := k)) (le_refl D)
          omega
      · rw [if_neg h'] at h
        cases h1 : body D s with
        | none => rw [h1] at h; simp at h
        | some s1 =>
          rw [h1] at h
          obtain ⟨x1, p1⟩ := hb _ _ _ h1
          obtain ⟨x2, p2, p3⟩ := ih (2 * D) s1 s' (by omega) (by omega) h
          refine ⟨x1.trans x2, ?_, ?_⟩
          · intro k hk
            cases k with
            | zero => rw [pow_zero, one_mul]; exact hP _ _ _ x2 p1
            | succ k =>
              have : 2 ^ (k + 1) * D = 2 ^ k * (2 * D) := by rw [pow_succ]; ring
              rw [this] at hk ⊢
              exact p2 k hk
          · intro _
            by_cases he : D = Dstop
            · rw [← he]; exact hP _ _ _ x2 p1
            · exact p3 (by omega)
    · rw [if_neg hlt] at h
      obtain rfl := Option.some.inj h
      refine ⟨Ext.refl _, ?_, by omega⟩
      intro k hk
      have := Nat.mul_le_mul (Nat.one_le_two_pow (n := k)) (le_refl D)
      omega

theorem checks_timed {M' m p q n : ℕ} {s s' : St} (hn : 1 ≤ n) (h : checks c app M' m p q n true s = some s') :
    Ext s s' ∧ ∀ D I, TriedD c app n D → TriedI c app I → c.kind.valid m p q n D c.S = true → ∃ t, (m, D, I, t) ∈ s'.log := by
  have hmax := maxD_pos c.kind hn
  unfold checks at h
  simp only at h
  obtain ⟨x, p1, p2⟩ := loopD_timed
    (P := fun D s => ∀ i, istart c app ≤ i → i < istop app → c.kind.valid m p q n D c.S = true → ∃ t, (m, D, i != 0, t) ∈ s.log)
    (fun i s s' hx hp j h1 h2 hv => by obtain ⟨t, ht⟩ := hp j h1 h2 hv; exact ⟨t, hx.log _ ht⟩)
    (fun D s s' hb => loopI_timed
      (P := fun i s => c.kind.valid m p q n D c.S = true → ∃ t, (m, D, i, t) ∈ s.log)
      (fun i s s' hx hp hv => by obtain ⟨t, ht⟩ := hp hv; exact ⟨t, hx.log _ ht⟩) (fun i s s' => check_timed) hb)
    _ _ s s' le_rfl (by split_ifs <;> omega) h
  refine ⟨x, ?_⟩
  intro D I hD hI hv
  have key : ∀ i, istart c app ≤ i → i < istop app → ∃ t, (m, D, i != 0, t) ∈ s'.log := by
    intro i h1 h2
    unfold TriedD at hD
    by_cases hF : 0 < app.D
    · rw [if_pos hF] at hD p1 p2
      rw [if_pos hF] at p2
      subst hD
      exact p2 (by omega) i h1 h2 hv
    · rw [if_neg hF] at hD p1 p2
      rw [if_neg hF] at p1 p2
      rcases hD with ⟨k, rfl, hk⟩ | rfl
      · have := p1 k (by omega) i h1 h2
        rw [mul_one] at this
        exact this hv
      · exact p2 (by omega) i h1 h2 hv
  unfold TriedI at hI
  unfold istart istop at key
  cases hi : app.I with
  | none =>
    rw [hi] at hI key
    simp only at hI key
    cases I with
    | true => exact key 1 (by split_ifs <;> omega) (by omega)
    | false =>
      refine key 0 ?_ (by omega)
      rw [if_neg]
      rintro ⟨h1, h2⟩
      rcases hI with h | h | h
      · simp at h
      · omega
      · rw [h] at h2; simp [Kind.isReal] at h2
  | some i =>
    rw [hi] at hI key
    simp only at hI key
    rw [hI]
    exact key i le_rfl (by omega)

/-- With a forced size, `opt` is one series of checks. -/
theorem opt_forced {m : ℕ} (hm : app.m = m) (hm1 : 1 ≤ m) (hL : 1 ≤ c.L) (hLM : c.L ≤ M) (hLb : c.L ≤ 2 ^ 32) (hpk : POk c m) (s : St) :
    opt c app true M 2 3 false ut s = checks c app M m (parameters c.L M m c.kind.isCentered).1
      (parameters c.L M m c.kind.isCentered).2.2 (parameters c.L M m c.kind.isCentered).2.1 ut s := by
  subst hm
  have key : ∀ itmax nx, itmax ≠ 0 → (2 < ceilquotient c.L app.m → itmax = app.m + 1) →
      (optloop c app true app.m M itmax ut nx s).bind (fun x => some x.2) =
        checks c app M app.m (parameters c.L M app.m c.kind.isCentered).1
      (parameters c.L M app.m c.kind.isCentered).2.2 (parameters c.L M app.m c.kind.isCentered).2.1 ut s := by
    intro itmax nx h0 h2
    unfold optloop
    rw [if_neg (by omega)]
    simp only
    rw [optwhile]
    have hp : (parameters c.L M app.m c.kind.isCentered).1 = ceilquotient c.L app.m := rfl
    have hp1 := cq_pos hL hm1
    have hp2 := (cq_le hL hm1).trans hLb
    obtain ⟨b, hb, -⟩ := C04_ispure hp1 hp2
    by_cases hin : 2 < ceilquotient c.L app.m
    · rw [h2 hin]
      simp only [hin, decide_true, if_true]
      rw [if_pos (by omega), if_neg (by omega)]
      rw [hp, hb]
      simp only [Option.bind_eq_bind, Option.bind_some, Bool.not_true, Bool.and_false, Bool.false_or]
      rw [if_neg, ]
      · cases checks c app M app.m (ceilquotient c.L app.m)
          (parameters c.L M app.m c.kind.isCentered).2.2 (parameters c.L M app.m c.kind.isCentered).2.1 ut s <;> rfl
      · rw [Bool.and_eq_true]
        rintro ⟨h, h'⟩
        have := hpk h hin
        simp [this] at h'
    · simp only [hin, decide_false]
      rw [if_pos (by simp; omega), if_neg (by omega)]
      simp only [Bool.false_eq_true, if_false, if_true, Option.bind_eq_bind, Option.bind_some]
      cases checks c app M app.m (parameters c.L M app.m c.kind.isCentered).1
          (parameters c.L M app.m c.kind.isCentered).2.2 (parameters c.L M app.m c.kind.isCentered).2.1 ut s <;> rfl
  unfold opt
  simp only [if_true]
  split_ifs with h
  · refine key 1 null (by omega) ?_
    intro h2
    exfalso
    have : c.L ≤ 2 * app.m := by
      have : c.L ≤ 2 * ceilquotient c.L 2 := by unfold ceilquotient; omega
      omega
    exact cq_le_two this hm1 h2
  · exact key _ _ (by omega) (fun _ => rfl)
  · exact key _ _ (by omega) (fun _ => rfl)

end Fftwpp.Opt
