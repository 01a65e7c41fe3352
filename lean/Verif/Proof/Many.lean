import Verif.Proof.F2

/-! Loops over strided data, and the `forward…Many` routines. -/

namespace Fftwpp
open Finset

/-- Parallel loop storing one word `W + a i` per iteration, reading other buffers or its own word only. -/
theorem par_at {ι : Type} {l : List ι} {body : ι → Body Unit} {m : Mem} {Q : Unit → Mem → Prop} {W : Ptr}
    (a : ι → ℕ) (v : ι → ℂ) (hnd : l.Nodup)
    (hg : ∀ i ∈ l, (body i).Good m)
    (hw : ∀ i ∈ l, (body i).wrs m = [(W + a i, v i)])
    (hinj : ∀ i ∈ l, ∀ j ∈ l, a i = a j → i = j)
    (hrd : ∀ i ∈ l, ∀ p ∈ (body i).rds m, p.buf ≠ W.buf ∨ p = W + a i)
    (hQ : ∀ m', m.Upd m' (fun p => ∃ i ∈ l, p = W + a i) → (∀ i ∈ l, m'.val (W + a i) = v i) → Q () m') :
    (par l body).Ok m Q := by
  refine par_map1 (fun i => W + a i) v hnd hg hw ?_ ?_ hQ
  · intro i hi j hj h
    exact hinj i hi j hj (Ptr.add_inj.1 h)
  · intro i hi j hj hij h
    rcases hrd j hj _ h with h1 | h1
    · exact h1 rfl
    · exact hij (hinj i hi j hj (Ptr.add_inj.1 h1))

/-- Loop over `a ≤ s < b`, `c0 ≤ c < C` storing at `W + S s + c`. -/
theorem par2 {a b c0 C S : ℕ} {W : Ptr} {body : ℕ × ℕ → Body Unit} {m : Mem} {Q : Unit → Mem → Prop} (hCS : C ≤ S)
    (v : ℕ → ℕ → ℂ)
    (hg : ∀ s c, a ≤ s → s < b → c0 ≤ c → c < C → (body (s, c)).Good m)
    (hw : ∀ s c, a ≤ s → s < b → c0 ≤ c → c < C → (body (s, c)).wrs m = [(W + (S * s + c), v s c)])
    (hrd : ∀ s c, a ≤ s → s < b → c0 ≤ c → c < C → ∀ p ∈ (body (s, c)).rds m, p.buf ≠ W.buf ∨ p = W + (S * s + c))
    (hQ : ∀ m', m.Upd m' (fun p => ∃ s c, a ≤ s ∧ s < b ∧ c0 ≤ c ∧ c < C ∧ p = W + (S * s + c)) →
      (∀ s c, a ≤ s → s < b → c0 ≤ c → c < C → m'.val (W + (S * s + c)) = v s c) → Q () m') :
    (par (rng2 a b c0 C) body).Ok m Q := by
  refine par_at (W := W) (fun i => S * i.1 + i.2) (fun i => v i.1 i.2) (rng2_nodup _ _ _ _) ?_ ?_ ?_ ?_ ?_
  · rintro ⟨s, c⟩ hi
    rw [mem_rng2] at hi
    exact hg s c hi.1.1 hi.1.2 hi.2.1 hi.2.2
  · rintro ⟨s, c⟩ hi
    rw [mem_rng2] at hi
    exact hw s c hi.1.1 hi.1.2 hi.2.1 hi.2.2
  · rintro ⟨s, c⟩ hi ⟨s', c'⟩ hi' h
    rw [mem_rng2] at hi hi'
    have := radix_inj (by simp only at hi; omega) (by simp only at hi'; omega) h
    simp only at this
    rw [this.1, this.2]
  · rintro ⟨s, c⟩ hi
    rw [mem_rng2] at hi
    exact hrd s c hi.1.1 hi.1.2 hi.2.1 hi.2.2
  · intro m' u e
    refine hQ m' (u.mono ?_) ?_
    · rintro p ⟨⟨s, c⟩, hi, rfl⟩
      rw [mem_rng2] at hi
      exact ⟨s, c, hi.1.1, hi.1.2, hi.2.1, hi.2.2, rfl⟩
    · intro s c h1 h2 h3 h4
      exact e (s, c) (mem_rng2.2 ⟨⟨h1, h2⟩, h3, h4⟩)

/-- Loop over `a ≤ t < b`, `d ≤ s < e`, `c < C` storing at `W + S(m t + s) + c`. -/
theorem par3 {a b d e C S m₀ : ℕ} {W : Ptr} {body : ℕ × ℕ × ℕ → Body Unit} {m : Mem} {Q : Unit → Mem → Prop} (hCS : C ≤ S)
    (hem : e ≤ m₀) (v : ℕ → ℕ → ℕ → ℂ)
    (hg : ∀ t s c, a ≤ t → t < b → d ≤ s → s < e → c < C → (body (t, s, c)).Good m)
    (hw : ∀ t s c, a ≤ t → t < b → d ≤ s → s < e → c < C →
      (body (t, s, c)).wrs m = [(W + (S * (m₀ * t + s) + c), v t s c)])
    (hrd : ∀ t s c, a ≤ t → t < b → d ≤ s → s < e → c < C →
      ∀ p ∈ (body (t, s, c)).rds m, p.buf ≠ W.buf ∨ p = W + (S * (m₀ * t + s) + c))
    (hQ : ∀ m', m.Upd m' (fun p => ∃ t s c, a ≤ t ∧ t < b ∧ d ≤ s ∧ s < e ∧ c < C ∧ p = W + (S * (m₀ * t + s) + c)) →
      (∀ t s c, a ≤ t → t < b → d ≤ s → s < e → c < C → m'.val (W + (S * (m₀ * t + s) + c)) = v t s c) → Q () m') :
    (par (rng3 a b d e 0 C) body).Ok m Q := by
  refine par_at (W := W) (fun i => S * (m₀ * i.1 + i.2.1) + i.2.2) (fun i => v i.1 i.2.1 i.2.2) (rng3_nodup _ _ _ _ _ _)
    ?_ ?_ ?_ ?_ ?_
  · rintro ⟨t, s, c⟩ hi
    rw [mem_rng3] at hi
    exact hg t s c hi.1.1 hi.1.2 hi.2.1.1 hi.2.1.2 hi.2.2.2
  · rintro ⟨t, s, c⟩ hi
    rw [mem_rng3] at hi
    exact hw t s c hi.1.1 hi.1.2 hi.2.1.1 hi.2.1.2 hi.2.2.2
  · rintro ⟨t, s, c⟩ hi ⟨t', s', c'⟩ hi' h
    rw [mem_rng3] at hi hi'
    simp only at hi hi' h
    have h1 := radix_inj (by omega) (by omega) h
    have h2 := radix_inj (by omega) (by omega) h1.1
    rw [h1.2, h2.1, h2.2]
  · rintro ⟨t, s, c⟩ hi
    rw [mem_rng3] at hi
    exact hrd t s c hi.1.1 hi.1.2 hi.2.1.1 hi.2.1.2 hi.2.2.2
  · intro m' u e
    refine hQ m' (u.mono ?_) ?_
    · rintro p ⟨⟨t, s, c⟩, hi, rfl⟩
      rw [mem_rng3] at hi
      exact ⟨t, s, c, hi.1.1, hi.1.2, hi.2.1.1, hi.2.1.2, hi.2.2.2, rfl⟩
    · intro t s c h1 h2 h3 h4 h5
      exact e (t, s, c) (mem_rng3.2 ⟨⟨h1, h2⟩, ⟨h3, h4⟩, by omega, h5⟩)

/-- Column copies at the first row of each copy (`for c`). -/
theorem par1c {C : ℕ} {W : Ptr} {body : ℕ → Body Unit} {m : Mem} {Q : Unit → Mem → Prop}
    (v : ℕ → ℂ)
    (hg : ∀ c, c < C → (body c).Good m)
    (hw : ∀ c, c < C → (body c).wrs m = [(W + c, v c)])
    (hrd : ∀ c, c < C → ∀ p ∈ (body c).rds m, p.buf ≠ W.buf ∨ p = W + c)
    (hQ : ∀ m', m.Upd m' (fun p => ∃ c, c < C ∧ p = W + c) →
      (∀ c, c < C → m'.val (W + c) = v c) → Q () m') :
    (par (rng 0 C) body).Ok m Q := by
  refine par_at (W := W) (fun i => i) (fun i => v i) (rng_nodup _ _) ?_ ?_ ?_ ?_ ?_
  · intro c hc; rw [mem_rng] at hc; exact hg c hc.2
  · intro c hc; rw [mem_rng] at hc; exact hw c hc.2
  · intro i _ j _ h; exact h
  · intro c hc; rw [mem_rng] at hc; exact hrd c hc.2
  · intro m' u e
    refine hQ m' (u.mono ?_) ?_
    · rintro p ⟨c, hc, rfl⟩; rw [mem_rng] at hc; exact ⟨c, hc.2, rfl⟩
    · intro c hc; exact e c (mem_rng.2 ⟨by omega, hc⟩)

namespace Fft
open ComplexConjugate
variable {o : Fft}

/-- Rows of all copies hold the folded data. -/
def FilledC (o : Fft) (m : Mem) (W : Ptr) (x : ℕ → ℕ → ℂ) (k : ℕ → ℤ) (K : ℕ) : Prop :=
  ∀ ρ < K, ∀ s < o.m, ∀ c < o.C, m.val (W + (o.S * (o.m * ρ + s) + c)) = fillv o.M o.L o.m o.p (x c) (k ρ) s

theorem WF.D_one (h : o.WF) (hS : o.S ≠ 1) : o.D = 1 := by
  by_contra hD
  exact hS (h.S_one hD).1

theorem WF.rows_D1 (h : o.WF) (hD : o.D = 1) (r : ℕ) : o.rows r = o.P := by
  unfold rows; rw [h.D0_eq_one hD, hD]; simp

theorem WF.res_D1 (h : o.WF) (hD : o.D = 1) (r : ℕ) {t : ℕ} (ht : t < o.P) : o.res r t = ((o.n * t + r : ℕ) : ℤ) := by
  unfold res; rw [h.conj_false_iff.2 (Or.inl hD)]
  simp only [Bool.false_eq_true, if_false]
  rw [Nat.mod_eq_of_lt ht, Nat.div_eq_of_lt ht, Nat.add_zero]

theorem WF.r_lt (h : o.WF) (hD : o.D = 1) {r : ℕ} (hv : o.Visit r) : r < o.n := by
  rcases hv with rfl | ⟨_, hlt⟩
  · exact h.n_pos
  · rwa [h.R_nconj (h.conj_false_iff.2 (Or.inl hD))] at hlt

theorem SepPtr.buf {i : Bool} {W F : Ptr} (h : SepPtr i W F) : W = F ∨ W.buf ≠ F.buf := by
  rcases h with ⟨_, h⟩ | ⟨_, h⟩
  · exact Or.inl h
  · exact Or.inr h

/-- The transform of the columns completes `forward` (`S>1`, one row per residue). -/
theorem finish_cols (h : o.WF) (hS : o.S ≠ 1) (hP : o.P = 1) {mem m1 : Mem} {f F W : Ptr} {r : ℕ}
    (pre : o.Pre mem f F W) (u1 : mem.Upd m1 (o.Reg W 1))
    (hfill : o.FilledC m1 W (fun c j => mem.val (f + (o.S * j + c))) (fun _ => r) 1) (hp2 : o.Padded m1 W) :
    (o.fftm.exec W F).Ok m1 (fun _ m' => o.FwdPost mem m' f F W r) := by
  have hD := h.D_one hS
  rw [(h.fftm_many hS).1]
  have hPD : o.P * o.D = 1 := by rw [hP, hD]
  have hv : ∀ p : Ptr, (∀ i < o.m * (o.P * o.D), ∀ c < o.C, mem.valid (p + (o.S * i + c))) →
      ∀ i < o.m, ∀ c < o.C, m1.valid (p + (o.S * i + c)) := by
    intro p hp i hi c hc
    exact Mem.valid_of_size u1.size (hp i (by rw [hPD]; omega) c hc)
  refine exec_cols h.C_le_S pre.sep (hv W pre.vW) (hv F pre.vF) ?_
  intro m' u' e'
  refine ⟨u1.trans u' (fun p hp => Or.inr (by rw [hPD]; exact hp)) ?_, ?_, ?_⟩
  · rintro p ⟨s, hs, c, hc, rfl⟩
    exact Or.inl ⟨s, by rw [hPD]; omega, c, hc, rfl⟩
  · intro ρ hρ s hs c hc
    rw [h.rows_D1 hD, hP] at hρ
    obtain rfl : ρ = 0 := by omega
    rw [h.res_D1 hD r (by omega), Nat.mul_zero, Nat.zero_add, Nat.mul_zero, Nat.zero_add, e' s hs c hc,
      ← row_fft h.M_eq (by have := h.m_pos; omega) (by have := h.q_pos; omega) h.p_ub]
    refine sum_congr rfl fun s' hs' => ?_
    have := hfill 0 (by omega) s' (mem_range.1 hs') c hc
    rw [Nat.mul_zero, Nat.zero_add] at this
    rw [this]
  · intro hi hq' hp1 t ht s hs hLs c hc
    rw [u'.frame, hp2 hi hq' hp1 t ht s hs hLs c hc]
    rintro ⟨_, _, _, _, h3⟩
    rcases pre.sep with ⟨h4, _⟩ | ⟨_, h4⟩
    · rw [hi] at h4; simp at h4
    · exact h4 (by simpa using congrArg Ptr.buf h3)

/-- Zero loop over columns. -/
theorem zeroCols_ok {a b C S : ℕ} {W : Ptr} {mem : Mem} (hCS : C ≤ S)
    (hv : ∀ s c, a ≤ s → s < b → c < C → mem.valid (W + (S * s + c))) {Q : Unit → Mem → Prop}
    (hQ : ∀ m', mem.Upd m' (fun p => ∃ s c, a ≤ s ∧ s < b ∧ 0 ≤ c ∧ c < C ∧ p = W + (S * s + c)) →
      (∀ s c, a ≤ s → s < b → 0 ≤ c → c < C → m'.val (W + (S * s + c)) = 0) → Q () m') :
    (par (rng2 a b 0 C) fun (s, c) => zero1 (W + S * s + c)).Ok mem Q := by
  refine par2 hCS (fun _ _ => 0) ?_ ?_ ?_ hQ
  · intro s c h1 h2 _ h3; body_simp; exact hv s c h1 h2 h3
  · intro s c h1 h2 _ h3; body_simp
  · intro s c h1 h2 _ h3 p; body_simp; exact fun h => h.elim

/-- Copy loop over columns. -/
theorem copyCols_ok {a b C S : ℕ} {W f : Ptr} {mem : Mem} (hCS : C ≤ S) (hb : f.buf ≠ W.buf)
    (hv : ∀ s c, a ≤ s → s < b → c < C → mem.valid (W + (S * s + c)))
    (hf : ∀ s c, a ≤ s → s < b → c < C → mem.valid (f + (S * s + c))) {Q : Unit → Mem → Prop}
    (hQ : ∀ m', mem.Upd m' (fun p => ∃ s c, a ≤ s ∧ s < b ∧ 0 ≤ c ∧ c < C ∧ p = W + (S * s + c)) →
      (∀ s c, a ≤ s → s < b → 0 ≤ c → c < C → m'.val (W + (S * s + c)) = mem.val (f + (S * s + c))) → Q () m') :
    (par (rng2 a b 0 C) fun (s, c) => copy1 (W + S * s + c) (f + S * s + c)).Ok mem Q := by
  refine par2 hCS (fun s c => mem.val (f + (S * s + c))) ?_ ?_ ?_ hQ
  · intro s c h1 h2 _ h3; body_simp; exact ⟨hf s c h1 h2 h3, hv s c h1 h2 h3⟩
  · intro s c h1 h2 _ h3; body_simp
  · intro s c h1 h2 _ h3 p; body_simp; rintro rfl; exact Or.inl (by simpa using hb)

theorem forward1Many_ok (h : o.WF) (hp : o.p = 1) (hq : o.q ≠ 1) (hS : o.S ≠ 1) {f F W : Ptr} {mem : Mem} {r : ℕ}
    {W? : Option Ptr} (hW : W?.getD F = W) (pre : o.Pre mem f F W) (hpd : o.Padded mem W) (hv : o.Visit r) :
    (o.forward1Many f F r W?).Ok mem (fun _ m' => o.FwdPost mem m' f F W r) := by
  have hL : o.L ≤ o.m := by have := h.p_ub; rw [hp, Nat.mul_one] at this; exact this
  have hL0 := h.L_pos
  have hm := h.m_pos
  have hCS := h.C_le_S
  have hC := h.C_pos
  have hP := h.P_one (by omega : o.p ≤ 2)
  have hD := h.D_one hS
  have hqn := h.q_n (by omega)
  have hrn := h.r_lt hD hv
  have hPD : o.P * o.D = 1 := by rw [hP, hD]
  have vf := pre.vf
  have vW := pre.vW
  rw [hPD, Nat.mul_one] at vW
  have hb := pre.fW
  have hpz : o.inplace = false → ∀ s < o.m, o.L ≤ s → ∀ c < o.C, mem.val (W + (o.S * s + c)) = 0 := by
    intro hi s hs hLs c hc
    have := hpd hi hq hp 0 (by omega) s hs hLs c hc
    rwa [Nat.mul_zero, Nat.zero_add] at this
  unfold forward1Many
  simp only [hW]
  -- everything after the padding
  have main : ∀ m1 : Mem, mem.Upd m1 (fun p => ∃ s c, o.L ≤ s ∧ s < o.m ∧ 0 ≤ c ∧ c < o.C ∧ p = W + (o.S * s + c)) →
      (∀ s c, o.L ≤ s → s < o.m → c < o.C → m1.val (W + (o.S * s + c)) = 0) →
      (o.inplace = false → m1 = mem) →
      Cmd.Ok (if r = 0 then
          if o.inplace = false ∧ o.m ≤ o.L ∧ o.S = o.C then o.fftm.exec f F
          else do
            par (rng2 0 o.L 0 o.C) fun (s, c) => copy1 (W + o.S * s + c) (f + o.S * s + c)
            o.fftm.exec W F
        else do
          par (rng 0 o.C) fun c => copy1 (W + c) (f + c)
          par (rng2 1 o.L 0 o.C) fun (s, c) => do
            let Zeta ← o.Zetaqm.get (o.m * r + s)
            let X := UNPACKL Zeta Zeta
            let Y := UNPACKH Zeta (-Zeta)
            let v ← load (f + o.S * s + c)
            store (W + o.S * s + c) (ZMULTxy X Y v)
          o.fftm.exec W F) m1 (fun _ m' => o.FwdPost mem m' f F W r) := by
    intro m1 u1 z1 hm1
    have hf1 : ∀ j : ℕ, m1.val (f + j) = mem.val (f + j) := fun j => u1.frame _ (by
      rintro ⟨_, _, _, _, _, _, h3⟩; exact hb (by simpa using congrArg Ptr.buf h3))
    -- finishing: given rows for s<L
    have fin : ∀ m2 : Mem, m1.Upd m2 (fun p => ∃ s c, 0 ≤ s ∧ s < o.L ∧ 0 ≤ c ∧ c < o.C ∧ p = W + (o.S * s + c)) →
        (∀ s < o.L, ∀ c < o.C, m2.val (W + (o.S * s + c)) = mem.val (f + (o.S * s + c)) * w o.M (s * r)) →
        (o.fftm.exec W F).Ok m2 (fun _ m' => o.FwdPost mem m' f F W r) := by
      intro m2 u2 e2
      have hz : ∀ s < o.m, o.L ≤ s → ∀ c < o.C, m2.val (W + (o.S * s + c)) = 0 := by
        intro s hs hLs c hc
        rw [u2.frame, z1 s c hLs hs hc]
        rintro ⟨s', c', _, h1, _, h2, h3⟩
        rw [Ptr.add_inj] at h3
        have := radix_inj (by omega) (by omega) h3
        omega
      refine finish_cols h hS hP pre (u1.trans u2 ?_ ?_) ?_ ?_
      · rintro p ⟨s, c, _, h1, _, h2, rfl⟩; exact ⟨s, by omega, c, h2, rfl⟩
      · rintro p ⟨s, c, _, h1, _, h2, rfl⟩; exact ⟨s, by omega, c, h2, rfl⟩
      · intro ρ hρ s hs c hc
        obtain rfl : ρ = 0 := by omega
        rw [hp, fillv_one, Nat.mul_zero, Nat.zero_add]
        split_ifs with h1
        · exact e2 s h1 c hc
        · exact hz s hs (by omega) c hc
      · intro hi _ _ t ht s hs hLs c hc
        obtain rfl : t = 0 := by omega
        rw [Nat.mul_zero, Nat.zero_add]
        exact hz s hs hLs c hc
    by_cases hr : r = 0
    · subst hr
      rw [if_pos rfl]
      by_cases hx : o.inplace = false ∧ o.m ≤ o.L ∧ o.S = o.C
      · rw [if_pos hx]
        rw [hm1 hx.1]
        have hmL : o.m = o.L := by omega
        rw [(h.fftm_many hS).1]
        refine exec_cols hCS (Or.inr ⟨hx.1, pre.fF⟩) (fun i hi c hc => vf i (by omega) c hc)
          (fun i hi c hc => pre.vF i (by rw [hPD]; omega) c hc) ?_
        intro m' u' e'
        refine ⟨u'.mono ?_, ?_, ?_⟩
        · rintro p ⟨s, hs, c, hc, rfl⟩
          exact Or.inl ⟨s, by rw [hPD]; omega, c, hc, rfl⟩
        · intro ρ hρ s hs c hc
          rw [h.rows_D1 hD, hP] at hρ
          obtain rfl : ρ = 0 := by omega
          rw [h.res_D1 hD 0 (by omega), Nat.mul_zero, Nat.zero_add, Nat.mul_zero, Nat.zero_add, e' s hs c hc,
            ← row_fft h.M_eq (by have := h.m_pos; omega) (by have := h.q_pos; omega) h.p_ub]
          refine sum_congr rfl fun s' hs' => ?_
          rw [mem_range] at hs'
          rw [hp, fillv_one, if_pos (by omega)]; simp
        · intro _ _ _ t ht s hs hLs c hc
          omega
      · rw [if_neg hx]
        refine Cmd.Ok.bind (copyCols_ok hCS hb ?_ ?_ ?_)
        · intro s c _ h2 h3; exact Mem.valid_of_size u1.size (vW s (by omega) c h3)
        · intro s c _ h2 h3; exact Mem.valid_of_size u1.size (vf s (by omega) c h3)
        intro m2 u2 e2
        refine fin m2 u2 ?_
        intro s hs c hc
        rw [e2 s c (by omega) hs (by omega) hc, hf1]; simp
    · rw [if_neg hr]
      refine Cmd.Ok.bind (par1c (W := W) (fun c => m1.val (f + c)) ?_ ?_ ?_ ?_)
      · intro c hc; body_simp
        have h1 := vf 0 hL0 c hc
        have h2 := vW 0 hm c hc
        rw [Nat.mul_zero, Nat.zero_add] at h1 h2
        exact ⟨Mem.valid_of_size u1.size h1, Mem.valid_of_size u1.size h2⟩
      · intro c hc; body_simp
      · intro c hc p; body_simp; rintro rfl; exact Or.inl (by simpa using hb)
      intro m2 u2 e2
      have hf2 : ∀ j : ℕ, m2.val (f + j) = mem.val (f + j) := fun j => by
        rw [← hf1]
        exact u2.frame _ (by rintro ⟨_, _, h3⟩; exact hb (by simpa using congrArg Ptr.buf h3))
      have hsz : m2.size = mem.size := u2.size.trans u1.size
      refine Cmd.Ok.bind (par2 (W := W) hCS (fun s c => m2.val (f + (o.S * s + c)) * w o.M (s * r)) ?_ ?_ ?_ ?_)
      · intro s c h1 h2 _ h3; body_simp
        exact ⟨h.zq_bd hq (by omega) (by omega) (by omega), Mem.valid_of_size hsz (vf s h2 c h3),
          Mem.valid_of_size hsz (vW s (by omega) c h3)⟩
      · intro s c h1 h2 _ h3; body_simp
        rw [C30_zmult_xy, h.zq_val hq (by omega), mul_comm (w o.M _)]
      · intro s c h1 h2 _ h3 p; body_simp; rintro rfl; exact Or.inl (by simpa using hb)
      intro m3 u3 e3
      refine fin m3 (u2.trans u3 ?_ ?_) ?_
      · rintro p ⟨c, hc, rfl⟩; exact ⟨0, c, by omega, hL0, by omega, hc, by simp⟩
      · rintro p ⟨s, c, h1, h2, h3, h4, rfl⟩; exact ⟨s, c, by omega, h2, h3, h4, rfl⟩
      · intro s hs c hc
        rcases Nat.eq_zero_or_pos s with rfl | h0
        · rw [u3.frame, Nat.mul_zero, Nat.zero_add, e2 c hc, hf1]
          · simp
          · rintro ⟨s', c', h1, h2, _, h4, h3⟩
            rw [Ptr.add_inj] at h3
            have := radix_inj (by omega) (by omega) h3
            omega
        · rw [e3 s c h0 hs (by omega) hc, hf2]
  by_cases hi : o.inplace = true
  · rw [if_pos hi]
    refine Cmd.Ok.bind (zeroCols_ok hCS (fun s c h1 h2 h3 => vW s h2 c h3) ?_)
    intro m1 u1 e1
    exact main m1 u1 (fun s c h1 h2 h3 => e1 s c h1 h2 (by omega) h3) (fun h => by simp [hi] at h)
  · rw [if_neg hi]
    refine Cmd.Ok.bind (Cmd.Ok.pure ?_)
    exact main mem (Mem.Upd.refl _ _) (fun s c h1 h2 h3 => hpz (by simpa using hi) s h2 h1 c h3) (fun _ => rfl)

theorem forward2Many_ok (h : o.WF) (hp : o.p = 2) (hq : o.q ≠ 1) (hS : o.S ≠ 1) {f F W : Ptr} {mem : Mem} {r : ℕ}
    {W? : Option Ptr} (hW : W?.getD F = W) (pre : o.Pre mem f F W) (hv : o.Visit r) :
    (o.forward2Many f F r W?).Ok mem (fun _ m' => o.FwdPost mem m' f F W r) := by
  obtain ⟨hmL, hL2⟩ := h.L_two hp
  have hm := h.m_pos
  have hCS := h.C_le_S
  have hC := h.C_pos
  have hP := h.P_one (by omega : o.p ≤ 2)
  have hD := h.D_one hS
  have hqn := h.q_n (by omega)
  have hrn := h.r_lt hD hv
  have hPD : o.P * o.D = 1 := by rw [hP, hD]
  have vf := pre.vf
  have vW := pre.vW
  rw [hPD, Nat.mul_one] at vW
  have hb := pre.fW
  have hfm : ∀ s c : ℕ, f + (o.Sm + o.S * s + c) = f + (o.S * (o.m + s) + c) := fun s c => by
    rw [h.Sm_eq]; congr 1; ring
  have hfm0 : ∀ c : ℕ, f + (o.Sm + c) = f + (o.S * (o.m + 0) + c) := fun c => by
    rw [h.Sm_eq]; congr 1
  have fin : ∀ m2 : Mem, mem.Upd m2 (o.Reg W 1) →
      (∀ s < o.m, ∀ c < o.C, m2.val (W + (o.S * s + c)) = fillv o.M o.L o.m 2 (fun j => mem.val (f + (o.S * j + c))) r s) →
      (o.fftm.exec W F).Ok m2 (fun _ m' => o.FwdPost mem m' f F W r) := by
    intro m2 u2 e2
    refine finish_cols h hS hP pre u2 ?_ (fun _ _ hp1 => by omega)
    intro ρ hρ s hs c hc
    obtain rfl : ρ = 0 := by omega
    rw [Nat.mul_zero, Nat.zero_add, hp]
    exact e2 s hs c hc
  unfold forward2Many
  simp only [hW]
  by_cases hr : r = 0
  · subst hr
    rw [if_pos rfl]
    refine Cmd.Ok.bind (par2 (W := W) hCS
      (fun s c => fillv o.M o.L o.m 2 (fun j => mem.val (f + (o.S * j + c))) 0 s) ?_ ?_ ?_ ?_)
    · intro s c h1 h2 _ h3; body_simp; rw [hfm]
      exact ⟨vf s (by omega) c h3, vf _ (by omega) c h3, vW s (by omega) c h3⟩
    · intro s c h1 h2 _ h3; body_simp; rw [hfm, fillv2_lo hmL h2]; simp
    · intro s c h1 h2 _ h3 p; body_simp; rintro (rfl | rfl) <;> exact Or.inl (by simpa using hb)
    intro m1 u1 e1
    have hf1 : ∀ j : ℕ, m1.val (f + j) = mem.val (f + j) := fun j => u1.frame _ (by
      rintro ⟨_, _, _, _, _, _, h3⟩; exact hb (by simpa using congrArg Ptr.buf h3))
    refine Cmd.Ok.bind (copyCols_ok hCS hb ?_ ?_ ?_)
    · intro s c _ h2 h3; exact Mem.valid_of_size u1.size (vW s (by omega) c h3)
    · intro s c _ h2 h3; exact Mem.valid_of_size u1.size (vf s (by omega) c h3)
    intro m2 u2 e2
    refine fin m2 (u1.trans u2 ?_ ?_) ?_
    · rintro p ⟨s, c, h1, h2, h3, h4, rfl⟩; exact ⟨s, by omega, c, h4, rfl⟩
    · rintro p ⟨s, c, h1, h2, h3, h4, rfl⟩; exact ⟨s, by omega, c, h4, rfl⟩
    · intro s hs c hc
      rcases Nat.lt_or_ge s (o.L - o.m) with h1 | h1
      · rw [u2.frame, e1 s c (by omega) h1 (by omega) hc]; simp
        rintro ⟨s', c', h1, h2, _, h4, h3⟩
        rw [Ptr.add_inj] at h3
        have := radix_inj (by omega) (by omega) h3
        omega
      · rw [e2 s c h1 hs (by omega) hc, hf1, fillv2_hi hmL h1 hs]; simp
  · rw [if_neg hr]
    refine Cmd.Ok.bind (par1c (W := W) (fun c => fillv o.M o.L o.m 2 (fun j => mem.val (f + (o.S * j + c))) r 0) ?_ ?_ ?_ ?_)
    · intro c hc; body_simp; rw [hfm0]
      have h1 := vf 0 (by omega) c hc
      have h2 := vW 0 hm c hc
      rw [Nat.mul_zero, Nat.zero_add] at h1 h2
      exact ⟨h.zqS_bd hp (by omega) (by omega) (le_refl o.m) hmL, h1, vf _ (by omega) c hc, h2⟩
    · intro c hc; body_simp
      rw [hfm0, h.zqS_val hp (le_refl o.m) hmL, fillv2_lo hmL (by omega), mul_comm]; simp
    · intro c hc p; body_simp; rintro (rfl | rfl) <;> exact Or.inl (by simpa using hb)
    intro m1 u1 e1
    have hf1 : ∀ j : ℕ, m1.val (f + j) = mem.val (f + j) := fun j => u1.frame _ (by
      rintro ⟨_, _, h3⟩; exact hb (by simpa using congrArg Ptr.buf h3))
    refine Cmd.Ok.bind (par2 (W := W) hCS
      (fun s c => fillv o.M o.L o.m 2 (fun j => mem.val (f + (o.S * j + c))) r s) ?_ ?_ ?_ ?_)
    · intro s c h1 h2 _ h3; body_simp; rw [hfm, Nat.add_assoc]
      exact ⟨h.zq_bd hq (by omega) (by omega) (by omega), h.zqS_bd hp (by omega) (by omega) (by omega) (by omega),
        Mem.valid_of_size u1.size (vf s (by omega) c h3), Mem.valid_of_size u1.size (vf _ (by omega) c h3),
        Mem.valid_of_size u1.size (vW s (by omega) c h3)⟩
    · intro s c h1 h2 _ h3; body_simp
      rw [hfm, h.zq_val hq (by omega), Nat.add_assoc, h.zqS_val hp (by omega) (by omega), hf1, hf1, fillv2_lo hmL h2,
        mul_comm (w o.M ((s : ℤ) * _)), mul_comm (w o.M (((o.m + s : ℕ) : ℤ) * _))]
    · intro s c h1 h2 _ h3 p; body_simp; rintro (rfl | rfl) <;> exact Or.inl (by simpa using hb)
    intro m2 u2 e2
    have hf2 : ∀ j : ℕ, m2.val (f + j) = mem.val (f + j) := fun j => by
      rw [← hf1]; exact u2.frame _ (by
        rintro ⟨_, _, _, _, _, _, h3⟩; exact hb (by simpa using congrArg Ptr.buf h3))
    have hsz : m2.size = mem.size := u2.size.trans u1.size
    refine Cmd.Ok.bind (par2 (W := W) hCS
      (fun s c => fillv o.M o.L o.m 2 (fun j => mem.val (f + (o.S * j + c))) r s) ?_ ?_ ?_ ?_)
    · intro s c h1 h2 _ h3; body_simp
      exact ⟨h.zq_bd hq (by omega) (by omega) (by omega),
        Mem.valid_of_size hsz (vf s (by omega) c h3),
        Mem.valid_of_size hsz (vW s (by omega) c h3)⟩
    · intro s c h1 h2 _ h3; body_simp
      rw [h.zq_val hq (by omega), hf2, fillv2_hi hmL h1 h2, mul_comm (w o.M _)]
    · intro s c h1 h2 _ h3 p; body_simp; rintro rfl; exact Or.inl (by simpa using hb)
    intro m3 u3 e3
    have hreg : ∀ a b : ℕ, b ≤ o.m → ∀ p, (∃ s c, a ≤ s ∧ s < b ∧ 0 ≤ c ∧ c < o.C ∧ p = W + (o.S * s + c)) → o.Reg W 1 p := by
      rintro a b hb p ⟨s, c, h1, h2, h3, h4, rfl⟩; exact ⟨s, by omega, c, h4, rfl⟩
    have hni : ∀ {s c a b : ℕ}, c < o.C → ¬ (a ≤ s ∧ s < b) →
        ¬ (∃ s' c', a ≤ s' ∧ s' < b ∧ 0 ≤ c' ∧ c' < o.C ∧ W + (o.S * s + c) = W + (o.S * s' + c')) := by
      rintro s c a b hc hn ⟨s', c', h1, h2, _, h4, h3⟩
      rw [Ptr.add_inj] at h3
      have := radix_inj (by omega) (by omega) h3
      omega
    refine fin m3 ((u1.trans u2 (R := o.Reg W 1) ?_ (hreg _ _ (by omega))).trans u3 (fun _ h => h) (hreg _ _ (by omega))) ?_
    · rintro p ⟨c, hc, rfl⟩; exact ⟨0, by omega, c, hc, by simp⟩
    · intro s hs c hc
      obtain rfl | h0 | h0 : s = 0 ∨ (1 ≤ s ∧ s < o.L - o.m) ∨ o.L - o.m ≤ s := by omega
      · rw [u3.frame _ (hni hc (by omega)), u2.frame _ (hni hc (by omega)), Nat.mul_zero, Nat.zero_add, e1 c hc]
      · rw [u3.frame _ (hni hc (by omega)), e2 s c h0.1 h0.2 (by omega) hc]
      · exact e3 s c h0 hs (by omega) hc

end Fft
end Fftwpp
