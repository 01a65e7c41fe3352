import Verif.Proof.Opt
import Verif.Props.Params

/-! # C19: the optimizer -/

namespace Fftwpp.Opt
open Utils

variable {c : Cfg} {app : OApp} {M : ℕ} {Explicit ut : Bool}

theorem optloop_outer {M' m itmax : ℕ} {app' : OApp} {mForced : Bool} (he : Env c M M' Explicit) (hD : app'.D = app.D) (hI : app'.I = app.I)
    (hml : mForced = false → Explicit = false → ¬ 1 ≤ app.m) {k : ℕ} (hk : mForced = true ∨ k ≤ 32) {nx : ℕ → Option ℕ}
    (hm : 1 ≤ m) (hm2 : mForced = true ∨ m ≤ 2 ^ k) (hmF : Explicit = false → 1 ≤ app.m → m = app.m) (hmM : M' = M ∨ M' ≤ m)
    (hp : c.L ≤ 2 * m) {s : St} (hs : Inv c app M Explicit ut s) :
    ∃ m' s', optloop c app' mForced m M' itmax ut nx s = some (m', s') ∧ m ≤ m' ∧ (mForced = true ∨ m' ≤ 2 ^ (k + 1)) ∧
        Inv c app M Explicit ut s' := by
  unfold optloop
  rw [if_neg (by omega)]
  have h := cq_le_two hp hm
  simp only [h, decide_false]
  exact optwhile_outer he hD hI hml hk _ _ m s le_rfl hm hm2 hmF hmM hp hs

/-- The next size function. -/
theorem nextInner_ok (c : Cfg) : ∀ x, 1 ≤ x → x ≤ 2 ^ 31 →
    ∃ y, (if ispow2 c.L then fun x => some (ceilpow2 x) else nextpuresize) x = some y ∧ x ≤ y ∧ ∀ j, x ≤ 2 ^ j → y ≤ 2 ^ j := by
  intro x h1 h2
  split_ifs
  · have h3 : x ≤ 2 ^ 63 := h2.trans (Nat.pow_le_pow_right (by norm_num) (by norm_num))
    exact ⟨_, rfl, le_ceilpow2 h1 h3, fun j hj => (ceilpow2_le_iff h1 h3).2 hj⟩
  · obtain ⟨y, hy, hl⟩ := C04_nextpuresize h1 (h2.trans (Nat.pow_le_pow_right (by norm_num) (by norm_num)))
    exact ⟨y, hy, hl.1.2, fun j hj => hl.2 ⟨⟨j, Or.inl rfl⟩, hj⟩⟩

theorem cq_half {a : ℕ} : a ≤ 2 * ceilquotient a 2 ∧ 2 * ceilquotient a 2 ≤ a + 1 := by
  unfold ceilquotient
  omega

theorem opt_ok (hL : 1 ≤ c.L) (hLM : c.L ≤ M) (hM : M ≤ 2 ^ 27) (hS : c.C ≤ c.S) {app' : OApp} {mForced : Bool}
    (hD : app'.D = app.D) (hI : app'.I = app.I) (hml : mForced = false → Explicit = false → ¬ 1 ≤ app.m)
    (hF : mForced = true → Explicit = false → 1 ≤ app'.m ∧ (1 ≤ app.m → app'.m = app.m))
    {s : St} (hs : Inv c app M Explicit ut s) :
    ∃ s', opt c app' mForced M 2 3 Explicit ut s = some s' ∧ Inv c app M Explicit ut s' := by
  have pm : ∀ {i j : ℕ}, i ≤ j → 2 ^ i ≤ 2 ^ j := fun h => Nat.pow_le_pow_right (by norm_num) h
  have hM1 : 1 ≤ M := by omega
  have h63 : M ≤ 2 ^ 63 := hM.trans (pm (by omega))
  have hcl := le_ceilpow2 hM1 h63
  have hcl2 := (ceilpow2_le_iff hM1 h63).2 hM
  unfold opt
  generalize ceilpow2 M = cM at hcl hcl2 ⊢
  cases Explicit with
  | false =>
    have he : Env c M M false := ⟨hL, hLM, hS, fun _ => rfl, le_rfl⟩
    simp only [if_true]
    have hnx := nextInner_ok c
    generalize (if ispow2 c.L then fun x => some (ceilpow2 x) else nextpuresize) = nx at hnx ⊢
    obtain ⟨hH1, hH2⟩ := cq_half (a := c.L)
    generalize ceilquotient c.L 2 = H at hH1 hH2 ⊢
    cases mForced with
    | true =>
      simp only [if_true]
      obtain ⟨hm, hmF⟩ := hF rfl rfl
      by_cases h : H ≤ app'.m
      · rw [if_pos h]
        obtain ⟨m', s', e, -, -, i⟩ := optloop_outer (itmax := 1) (ut := ut) (k := 0) (nx := null) he hD hI hml (Or.inl rfl) hm (Or.inl rfl) (fun _ => hmF)
          (Or.inl rfl) (by omega) hs
        rw [e]
        exact ⟨s', rfl, i⟩
      · rw [if_neg h]
        have hnxm : ∃ y, nx (app'.m + 1) = some y ∧ app'.m + 1 ≤ y := by
          obtain ⟨y, h1, h2, _⟩ := hnx (app'.m + 1) (by omega) (by have := pm (show 27 ≤ 31 by omega); omega)
          exact ⟨y, h1, h2⟩
        have : ∃ m' s', optloop c app' true app'.m M (app'.m + 1) ut nx s = some (m', s') ∧ Inv c app M false ut s' := by
          by_cases hin : 2 < ceilquotient c.L app'.m
          · unfold optloop
            rw [if_neg (by omega)]
            simp only [hin, decide_true, if_true]
            exact optwhile_forced he hD hI (by have := pm (show 27 ≤ 32 by omega); omega) hnxm hm (fun _ => hmF) (Or.inl rfl) hs
          · unfold optloop
            rw [if_neg (by omega)]
            simp only [hin, decide_false]
            obtain ⟨m', s', e, -, -, i⟩ := optwhile_outer (itmax := app'.m + 1) (k := 0) (nx := nx) he hD hI hml (Or.inl rfl) _ _ app'.m s le_rfl hm
              (Or.inl rfl) (fun _ => hmF) (Or.inl rfl) (le_of_cq hm hin) hs
            exact ⟨m', s', e, i⟩
        obtain ⟨m', s', e, i⟩ := this
        rw [e]
        exact ⟨s', rfl, i⟩
    | false =>
      have happ := hml rfl rfl
      have hmF : ∀ m, false = false → 1 ≤ app.m → m = app.m := fun _ _ h => absurd h happ
      simp only [Bool.false_eq_true, if_false]
      obtain ⟨y, hy, hy1, hy2⟩ := hnx 2 (by omega) (by norm_num)
      rw [hy]
      simp only [Option.bind_eq_bind, Option.bind_some]
      have h27 := pm (show 27 ≤ 31 by omega)
      have h28 := pm (show 27 ≤ 32 by omega)
      have st1 : ∃ m' s', optloop c app' false y M H ut nx s = some (m', s') ∧ Inv c app M false ut s' := by
        unfold optloop
        rw [if_neg (by omega)]
        by_cases hin : 2 < ceilquotient c.L y
        · simp only [hin, decide_true, if_true]
          exact optwhile_inner he hD hI (fun _ => happ) (by omega) (by omega)
            (fun x h1 h2 => by obtain ⟨z, a, b, _⟩ := hnx x h1 h2; exact ⟨z, a, b⟩) _ y s le_rfl (by omega) (Or.inl rfl) hs
        · simp only [hin, decide_false]
          obtain ⟨m', s', e, -, -, i⟩ := optwhile_outer (itmax := H) (k := 1) (nx := nx) he hD hI hml (Or.inr (by omega)) _ _ y s le_rfl (by omega)
            (Or.inr (hy2 1 (by norm_num))) (hmF y) (Or.inl rfl) (le_of_cq (by omega) hin) hs
          exact ⟨m', s', e, i⟩
      obtain ⟨ma, s1, e1, i1⟩ := st1
      rw [e1]
      simp only [Option.bind_some]
      have loop : ∀ (k m : ℕ) (it : ℕ) (s : St), k ≤ 32 → 1 ≤ m → m ≤ 2 ^ k → c.L ≤ 2 * m → Inv c app M false ut s →
          ∃ m' s', optloop c app' false m M it ut null s = some (m', s') ∧ m ≤ m' ∧ m' ≤ 2 ^ (k + 1) ∧ Inv c app M false ut s' := by
        intro k m it s hk h1 h2 h3 h4
        obtain ⟨m', s', e, l, b, i⟩ := optloop_outer (itmax := it) (ut := ut) (k := k) (nx := null) he hD hI hml (Or.inr hk) h1 (Or.inr h2) (hmF m)
          (Or.inl rfl) h3 h4
        exact ⟨m', s', e, l, b.resolve_left (by simp), i⟩
      obtain ⟨m0, hm0, l0, b0⟩ := nextfft_ok (x := H) (k := 27) (by omega) (by omega) (by norm_num)
      rw [hm0]
      simp only [Option.bind_some]
      obtain ⟨m1, s2, e2, l1, b1, i2⟩ := loop 27 m0 3 s1 (by omega) (by omega) b0 (by omega) i1
      rw [e2]
      simp only [Option.bind_some]
      obtain ⟨hh1, hh2⟩ := cq_half (a := M)
      generalize ceilquotient M 2 = Mhalf at hh1 hh2 ⊢
      have mid : ∃ m' s', (if Mhalf < c.L then do
          let m ← nextfftsize (max Mhalf (m1 + 1))
          let (m, s) ← optloop c app' false m M 3 ut null s2
          let m ← nextfftsize (max c.L (m + 1))
          optloop c app' false m M 3 ut null s
        else do
          let m ← nextfftsize (max c.L (m1 + 1))
          let (m, s) ← optloop c app' false m M 3 ut null s2
          let (m, s) ← (if 16 < M ∧ m < 16 then optloop c app' false 16 M 1 ut null s else some (m, s))
          if 32 < M ∧ m < 32 then optloop c app' false 32 M 1 ut null s else some (m, s)) = some (m', s') ∧
          m' ≤ 2 ^ 32 ∧ c.L ≤ 2 * m' ∧ Inv c app M false ut s' := by
        split_ifs with hb
        · obtain ⟨m2, hm2, l2, b2⟩ := nextfft_ok (x := max Mhalf (m1 + 1)) (k := 29) (by omega)
            (by omega) (by norm_num)
          rw [hm2]
          simp only [Option.bind_eq_bind, Option.bind_some]
          obtain ⟨m3, s3, e3, l3, b3, i3⟩ := loop 29 m2 3 s2 (by omega) (by omega) b2 (by omega) i2
          rw [e3]
          simp only [Option.bind_some]
          obtain ⟨m4, hm4, l4, b4⟩ := nextfft_ok (x := max c.L (m3 + 1)) (k := 31) (by omega)
            (by omega) (by norm_num)
          rw [hm4]
          simp only [Option.bind_some]
          obtain ⟨m5, s5, e5, l5, b5, i5⟩ := loop 31 m4 3 s3 (by omega) (by omega) b4 (by omega) i3
          exact ⟨m5, s5, e5, b5, by omega, i5⟩
        · obtain ⟨m2, hm2, l2, b2⟩ := nextfft_ok (x := max c.L (m1 + 1)) (k := 29) (by omega)
            (by omega) (by norm_num)
          rw [hm2]
          simp only [Option.bind_eq_bind, Option.bind_some]
          obtain ⟨m3, s3, e3, l3, b3, i3⟩ := loop 29 m2 3 s2 (by omega) (by omega) b2 (by omega) i2
          rw [e3]
          simp only [Option.bind_some]
          have s16 : ∃ m' s', (if 16 < M ∧ m3 < 16 then optloop c app' false 16 M 1 ut null s3 else some (m3, s3)) = some (m', s') ∧
              m' ≤ 2 ^ 30 ∧ c.L ≤ 2 * m' ∧ Inv c app M false ut s' := by
            split_ifs with h
            · obtain ⟨m', s', e, l, b, i⟩ := loop 4 16 1 s3 (by omega) (by omega) (by norm_num) (by omega) i3
              exact ⟨m', s', e, b.trans (pm (by omega)), by omega, i⟩
            · exact ⟨m3, s3, rfl, b3, by omega, i3⟩
          obtain ⟨m4, s4, e4, b4, l4, i4⟩ := s16
          rw [e4]
          simp only [Option.bind_some]
          split_ifs with h
          · obtain ⟨m', s', e, l, b, i⟩ := loop 5 32 1 s4 (by omega) (by omega) (by norm_num) (by omega) i4
            exact ⟨m', s', e, b.trans (pm (by omega)), by omega, i⟩
          · exact ⟨m4, s4, rfl, b4.trans (pm (by omega)), l4, i4⟩
      obtain ⟨m6, s6, e6, b6, l6, i6⟩ := mid
      simp only [Option.bind_eq_bind] at e6
      rw [e6]
      simp only [Option.bind_some]
      obtain ⟨m7, hm7, l7, b7⟩ := nextfft_ok (x := max M m6) (k := 32) (by omega) (by omega) (by norm_num)
      rw [hm7]
      simp only [Option.bind_some]
      obtain ⟨m8, s8, e8, l8, b8, i8⟩ := loop 32 m7 3 s6 (by omega) (by omega) b7 (by omega) i6
      rw [e8, Option.bind_some]
      by_cases hp : m8 < cM ∧ c.C = 1
      · rw [if_pos hp]
        obtain ⟨m9, s9, e9, l9, b9, i9⟩ := loop 27 cM 1 s8 (by omega) (by omega) hcl2 (by omega) i8
        rw [e9]
        exact ⟨s9, rfl, i9⟩
      · rw [if_neg hp]
        exact ⟨s8, rfl, i8⟩
  | true =>
    simp only [Bool.true_eq_false, if_false]
    obtain ⟨m0, hm0, l0, b0⟩ := nextfft_ok (x := M) (k := 27) (by omega) (by omega) (by norm_num)
    rw [hm0]
    simp only [Option.bind_eq_bind, Option.bind_some]
    have hmF : ∀ m, true = false → 1 ≤ app.m → m = app.m := fun _ h => by simp at h
    obtain ⟨m1, s1, e1, l1, b1, i1⟩ := optloop_outer (itmax := 3) (ut := ut) (k := 27) (nx := null) (mForced := mForced) (m := m0) (M' := m0)
      ⟨hL, hLM, hS, by simp, l0⟩ hD hI hml (Or.inr (by omega)) (by omega) (Or.inr b0) (hmF m0) (Or.inr le_rfl) (by omega) hs
    rw [e1, Option.bind_some]
    by_cases hp : m1 < cM ∧ c.C = 1
    · rw [if_pos hp]
      obtain ⟨m2, s2, e2, l2, b2, i2⟩ := optloop_outer (itmax := 1) (ut := ut) (k := 27) (nx := null) (mForced := mForced) (m := cM) (M' := M)
        ⟨hL, hLM, hS, fun _ => rfl, le_rfl⟩ hD hI hml (Or.inr (by omega)) (by omega) (Or.inr hcl2)
        (hmF _) (Or.inl rfl) (by omega) i1
      rw [e2]
      exact ⟨s2, rfl, i2⟩
    · rw [if_neg hp]
      exact ⟨s1, rfl, i1⟩

/-- The run of `scan`. -/
theorem scan_ok (c : Cfg) (app : OApp) (M : ℕ) (Explicit : Bool) (hL : 1 ≤ c.L) (hLM : c.L ≤ M) (hM : M ≤ 2 ^ 27) (hS : c.C ≤ c.S) :
    ∃ s, scan c app M Explicit = some s ∧ Inv c app M Explicit true s ∧
      (Explicit = false → 1 < s.counter → ∀ m ∈ s.mlist, ∀ D I, TriedD c app (parameters c.L M m c.kind.isCentered).2.1 D → TriedI c app I →
        c.kind.valid m (parameters c.L M m c.kind.isCentered).1 (parameters c.L M m c.kind.isCentered).2.2
          (parameters c.L M m c.kind.isCentered).2.1 D c.S = true → ∃ t, (m, D, I, t) ∈ s.log) := by
  unfold scan
  simp only
  obtain ⟨s1, e1, i1⟩ := opt_ok (ut := false) (Explicit := Explicit) (app := app) (app' := app) (mForced := decide (1 ≤ app.m)) hL hLM hM hS rfl rfl
    (fun h _ => by simpa using h) (fun h _ => ⟨by simpa using h, fun _ => rfl⟩)
    (s := ⟨0, M, 1, false, DBL_MAX, [], []⟩) ⟨Or.inr ⟨rfl, rfl, rfl⟩, by simp, by simp, Or.inl rfl, by simp, fun _ => rfl, by simp, by simp⟩
  rw [e1]
  simp only [Option.bind_eq_bind, Option.bind_some]
  have i1' : Inv c app M Explicit true s1 := ⟨i1.choice, i1.ml, i1.le, i1.best, i1.log, by simp, i1.cnt, i1.mlne⟩
  split_ifs with hc
  · have hml : ∀ r ∈ s1.mlist.reverse, (1 ≤ r ∧ POk c r) ∧ (Explicit = false → 1 ≤ app.m → r = app.m) := fun r hr => i1.ml r (List.mem_reverse.1 hr)
    have : ∃ s, s1.mlist.reverse.foldlM (fun s r => opt c { app with m := r } true M 2 3 Explicit true s) s1 = some s ∧ Inv c app M Explicit true s ∧
        (Explicit = false → Ext s1 s ∧ ∀ m ∈ s1.mlist.reverse, ∀ D I, TriedD c app (parameters c.L M m c.kind.isCentered).2.1 D → TriedI c app I →
        c.kind.valid m (parameters c.L M m c.kind.isCentered).1 (parameters c.L M m c.kind.isCentered).2.2
          (parameters c.L M m c.kind.isCentered).2.1 D c.S = true → ∃ t, (m, D, I, t) ∈ s.log) := by
      generalize s1.mlist.reverse = l at hml
      clear e1 hc i1
      induction l generalizing s1 with
      | nil => exact ⟨s1, rfl, i1', fun _ => ⟨Ext.refl _, by simp⟩⟩
      | cons r l ih =>
        obtain ⟨hr, hrF⟩ := hml r (by simp)
        obtain ⟨s2, e2, i2⟩ := opt_ok (ut := true) (Explicit := Explicit) (app := app) (app' := { app with m := r }) (mForced := true) hL hLM hM hS rfl rfl
          (by simp) (fun _ hE => ⟨hr.1, hrF hE⟩) i1'
        rw [List.foldlM_cons, e2]
        obtain ⟨s3, e3, i3, t3⟩ := ih s2 i2 (fun r' hr' => hml r' (by simp [hr']))
        refine ⟨s3, e3, i3, ?_⟩
        intro hE
        obtain ⟨x3, t4⟩ := t3 hE
        subst hE
        rw [opt_forced (app := { app with m := r }) (m := r) rfl hr.1 hL hLM
          (hLM.trans (hM.trans (Nat.pow_le_pow_right (by norm_num) (by norm_num)))) hr.2] at e2
        obtain ⟨x2, t2⟩ := checks_timed (n_pos hL (by omega) hr.1) e2
        refine ⟨x2.trans x3, ?_⟩
        intro m hm D I hD hI hv
        rcases List.mem_cons.1 hm with rfl | hm
        · obtain ⟨t, ht⟩ := t2 D I hD hI hv
          exact ⟨t, x3.log _ ht⟩
        · exact t4 m hm D I hD hI hv
    obtain ⟨s, e, i, t⟩ := this
    refine ⟨s, e, i, ?_⟩
    intro hE _ m hm
    obtain ⟨x, tt⟩ := t hE
    exact tt m (by rw [List.mem_reverse, ← x.mlist]; exact hm)
  · exact ⟨s1, rfl, i1', fun _ h => absurd h hc⟩

/-- **C19**: for every class of transforms, sizes `1 ≤ L ≤ M ≤ 2^27`, user settings, and every sequence of timings (and
whatever `back()` of an empty list gives), `scan` terminates normally; the parameters it selects are accepted by the class;
they are the explicit fallback `m=M`, `D=1` out of place if no acceptable candidate was found, and otherwise respect the forced
values of `m` (unless explicit padding was requested), `D` and `I`; and they are the fastest of all those timed: for each timed
alternative that took less than `DBL_MAX`, the selected one was timed too and was not slower. -/
theorem C19_scan (c : Cfg) (app : OApp) (M : ℕ) (Explicit : Bool) (hL : 1 ≤ c.L) (hLM : c.L ≤ M) (hM : M ≤ 2 ^ 27) (hS : c.C ≤ c.S) :
    ∃ s, scan c app M Explicit = some s ∧ 1 ≤ s.m ∧ 1 ≤ s.D ∧
      (let (p, n, q) := parameters c.L M s.m c.kind.isCentered
       c.kind.valid s.m p q n s.D c.S = true) ∧
      ((s.counter = 0 ∧ s.m = M ∧ s.D = 1 ∧ s.inplace = false) ∨
        ((Explicit = false → 1 ≤ app.m → s.m = app.m) ∧ (0 < app.D → s.D = app.D) ∧ ∀ I, app.I = some I → s.inplace = (I != 0))) ∧
      (∀ m D I t, (m, D, I, t) ∈ s.log → t < DBL_MAX → ∃ t', (s.m, s.D, s.inplace, t') ∈ s.log ∧ t' ≤ t) := by
  obtain ⟨s, h, i, -⟩ := scan_ok c app M Explicit hL hLM hM hS
  have hbest : ∀ m D I t, (m, D, I, t) ∈ s.log → t < DBL_MAX → ∃ t', (s.m, s.D, s.inplace, t') ∈ s.log ∧ t' ≤ t := by
    intro m D I t ht hlt
    have := i.le _ ht
    simp only at this
    rcases i.best with hb | hb
    · rw [hb] at this
      exact absurd this (not_le.2 hlt)
    · exact ⟨_, hb, this⟩
  by_cases hc : 0 < s.counter
  · have hc := i.cnt hc
    exact ⟨s, h, hc.m_pos, hc.D_pos, hc.valid, Or.inr ⟨hc.mF, hc.DF, hc.IF⟩, hbest⟩
  rcases i.choice with hc | ⟨h1, h2, h3⟩
  · exact ⟨s, h, hc.m_pos, hc.D_pos, hc.valid, Or.inr ⟨hc.mF, hc.DF, hc.IF⟩, hbest⟩
  · refine ⟨s, h, by omega, by omega, ?_, Or.inl ⟨by omega, h1, h2, h3⟩, hbest⟩
    rw [h1, h2, parameters_explicit hL hLM le_rfl]
    cases c.kind <;> simp [Kind.valid, fftPadValid]

/-- Every acceptable candidate of every listed size was timed, as soon as there were two of them, and the selected parameters are
at least as fast as each of them: `mlist` is not empty, and all the (`D`,`inplace`) combinations that the user's settings allow
(`TriedD`, `TriedI`) and the class accepts compete.  Without explicit padding; `back()` of an empty list is supposed not to
coincide with the first candidate. -/
theorem C19_fastest (c : Cfg) (app : OApp) (M : ℕ) (hL : 1 ≤ c.L) (hLM : c.L ≤ M) (hM : M ≤ 2 ^ 27) (hS : c.C ≤ c.S) (hb : c.back = 0) :
    ∃ s, scan c app M false = some s ∧ (1 ≤ s.counter → s.mlist ≠ []) ∧
      (1 < s.counter → ∀ m ∈ s.mlist, ∀ D I, TriedD c app (parameters c.L M m c.kind.isCentered).2.1 D → TriedI c app I →
        c.kind.valid m (parameters c.L M m c.kind.isCentered).1 (parameters c.L M m c.kind.isCentered).2.2
          (parameters c.L M m c.kind.isCentered).2.1 D c.S = true →
        ∃ t, (m, D, I, t) ∈ s.log ∧ (t < DBL_MAX → ∃ t', (s.m, s.D, s.inplace, t') ∈ s.log ∧ t' ≤ t)) := by
  obtain ⟨s, h, i, t⟩ := scan_ok c app M false hL hLM hM hS
  refine ⟨s, h, fun hc => i.mlne hb hc, ?_⟩
  intro hc m hm D I hD hI hv
  obtain ⟨t, ht⟩ := t rfl hc m hm D I hD hI hv
  refine ⟨t, ht, ?_⟩
  intro hlt
  have := i.le _ ht
  simp only at this
  rcases i.best with hb | hb
  · rw [hb] at this
    exact absurd this (not_le.2 hlt)
  · exact ⟨_, hb, this⟩

/-- If the user forces `m`, `D` and `I` and the class accepts them (in the centered classes, also `p` even or at most 2), then
exactly these are selected. -/
theorem C19_forced (c : Cfg) (app : OApp) (M I : ℕ) (hL : 1 ≤ c.L) (hLM : c.L ≤ M) (hM : M ≤ 2 ^ 27)
    (hm : 1 ≤ app.m) (hD : 1 ≤ app.D) (hI : app.I = some I)
    (hv : c.kind.valid app.m (parameters c.L M app.m c.kind.isCentered).1 (parameters c.L M app.m c.kind.isCentered).2.2
      (parameters c.L M app.m c.kind.isCentered).2.1 app.D c.S = true)
    (hp : c.kind.isCentered = true → ceilquotient c.L app.m ≤ 2 ∨ ceilquotient c.L app.m % 2 = 0) :
    ∃ s, scan c app M false = some s ∧ s.m = app.m ∧ s.D = app.D ∧ s.inplace = (I != 0) := by
  have hpk : POk c app.m := by
    intro h h2
    rcases hp h with h | h
    · omega
    · exact h
  unfold scan
  simp only [hm, decide_true]
  rw [opt_forced rfl hm hL hLM (hLM.trans (hM.trans (Nat.pow_le_pow_right (by norm_num) (by norm_num)))) hpk]
  unfold checks
  simp only [if_pos (show 0 < app.D by omega), istart, istop, hI]
  rw [loopD, if_pos (by omega)]
  simp only [lt_irrefl, if_false, loopI, show I + 1 - I = 1 by omega, List.range'_one, List.foldlM_cons, List.foldlM_nil]
  unfold check
  simp only [hv, if_true, Bool.false_eq_true, if_false]
  split_ifs with h1 h2 h2
  any_goals exact absurd rfl h2
  all_goals
    simp only [Option.bind_eq_bind, Option.bind_some, Option.pure_def]
    rw [loopD, if_neg (by omega)]
    simp only [Option.bind_some]
    rw [if_neg (by simp)]
    exact ⟨_, rfl, rfl, rfl, rfl⟩

/-- The optimizer's choice for the class `fftPad` is accepted by the constructor: no exit and no undefined behaviour. -/
theorem C19_constructor (c : Cfg) (app : OApp) (M : ℕ) (Explicit : Bool) (hk : c.kind = .pad) (hL : 1 ≤ c.L) (hLM : c.L ≤ M) (hM : M ≤ 2 ^ 27)
    (hC : 1 ≤ c.C) (hS : c.C ≤ c.S) (ap : App) :
    ∃ s o, scan c app M Explicit = some s ∧ Fft.new c.L M ap c.C c.S s.m s.D s.inplace = .ok o := by
  obtain ⟨s, h, hm, hD, hv, -⟩ := C19_scan c app M Explicit hL hLM hM hS
  rw [hk] at hv
  simp only [Kind.valid, Kind.isCentered] at hv
  have hex := C05_constructor_exit (L := c.L) (M := M) (app := ap) (C := c.C) (S := c.S) (m := s.m) (D := s.D) (inplace := s.inplace) hL hm (by omega)
  have hne : Fft.new c.L M ap c.C c.S s.m s.D s.inplace ≠ .error .exit := by
    rw [Ne, hex]
    rintro (h | h | ⟨_, h⟩)
    · omega
    · omega
    · rw [hv] at h
      simp at h
  refine ⟨s, ?_⟩
  have hub : Fft.new c.L M ap c.C c.S s.m s.D s.inplace ≠ .error .ub := by
    unfold Fft.new
    simp only [if_neg (show c.S ≠ 0 by omega)]
    rw [if_neg (by omega), if_neg (by omega), if_neg (by omega)]
    split_ifs
    · simp
    · simp
    · simp
    · omega
    · simp
  cases hr : Fft.new c.L M ap c.C c.S s.m s.D s.inplace with
  | ok o => exact ⟨o, h, rfl⟩
  | error e =>
    cases e with
    | ub => exact absurd hr hub
    | exit => exact absurd hr hne

/-- The hypotheses are met: convolution of length 5 padded to 9, all parameters free or all forced. -/
example : ∃ (c : Cfg) (app : OApp), c.kind = .pad ∧ 1 ≤ c.L ∧ c.L ≤ 9 ∧ 9 ≤ 2 ^ 27 ∧ 1 ≤ c.C ∧ c.C ≤ c.S ∧ app.m = 4 ∧ app.D = 2 ∧ app.I = some 1 :=
  ⟨⟨.pad, 5, 1, 1, fun _ => 0, 0⟩, ⟨4, 2, some 1⟩, rfl, by decide, by decide, by norm_num, le_rfl, le_rfl, rfl, rfl, rfl⟩

/-- The hypotheses of `C19_forced` are met: length 5 padded to 9 with `m=4`, `D=1`, in place; and for the centered class. -/
example (k : Kind) (hk : k = .pad ∨ k = .centered) : ∃ (c : Cfg) (app : OApp), c.kind = k ∧ c.L = 5 ∧ app.m = 4 ∧ app.D = 1 ∧ app.I = some 1 ∧
    c.kind.valid app.m (parameters c.L 9 app.m c.kind.isCentered).1 (parameters c.L 9 app.m c.kind.isCentered).2.2
      (parameters c.L 9 app.m c.kind.isCentered).2.1 app.D c.S = true ∧
    (c.kind.isCentered = true → ceilquotient c.L app.m ≤ 2 ∨ ceilquotient c.L app.m % 2 = 0) := by
  refine ⟨⟨k, 5, 1, 1, fun _ => 0, 0⟩, ⟨4, 1, some 1⟩, rfl, rfl, rfl, rfl, rfl, ?_, ?_⟩
  · rcases hk with rfl | rfl <;> decide
  · intro _; exact Or.inl (show ceilquotient 5 4 ≤ 2 by decide)

/-- With `m=4` forced and nothing else, several candidates compete: both in place and out of place are tried and accepted. -/
example : ∃ c : Cfg, ∃ app : OApp, c.L = 5 ∧ app.m = 4 ∧ (∀ I, TriedI c app I) ∧ TriedD c app (parameters 5 9 4 false).2.1 1 ∧
    TriedD c app (parameters 5 9 4 false).2.1 2 := by
  refine ⟨⟨.pad, 5, 1, 1, fun _ => 0, 0⟩, ⟨4, 0, none⟩, rfl, rfl, fun I => Or.inr (Or.inl le_rfl), ?_, ?_⟩
  · rw [TriedD, if_neg (by simp)]
    exact Or.inl ⟨0, rfl, by decide⟩
  · rw [TriedD, if_neg (by simp)]
    exact Or.inl ⟨1, rfl, by decide⟩

/-- A run of the optimizer: length 2 padded to 3; the timings make `m=3` explicit padding out of place the fastest. -/
example : (check ⟨.pad, 2, 1, 1, fun _ => 7, 0⟩ 3 3 1 1 1 1 false true ⟨2, 2, 1, false, 10, [2, 3], []⟩) =
    some ⟨2, 3, 1, false, 7, [2, 3], [(3, 1, false, 7)]⟩ := by
  simp [check, time, Kind.valid, fftPadValid]
  norm_num

end Fftwpp.Opt
