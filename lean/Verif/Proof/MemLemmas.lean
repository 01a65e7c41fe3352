import Verif.Model.Mem
import Verif.Proof.Roots
import Mathlib.Tactic.Linarith

/-! Helper lemmas about the execution model. -/

namespace Fftwpp
open Finset

@[simp] theorem Mem.set_size (m : Mem) (p : Ptr) (v : ℂ) : (m.set p v).size = m.size := rfl
theorem Mem.set_val (m : Mem) (p q : Ptr) (v : ℂ) :
    (m.set p v).val q = if q = p then v else m.val q := rfl
@[simp] theorem Mem.set_valid (m : Mem) (p q : Ptr) (v : ℂ) : (m.set p v).valid q ↔ m.valid q := Iff.rfl

@[simp] theorem Mem.setAll_nil (m : Mem) : m.setAll [] = m := rfl
@[simp] theorem Mem.setAll_cons (m : Mem) (p : Ptr) (v : ℂ) (t : List (Ptr × ℂ)) :
    m.setAll ((p, v) :: t) = (m.set p v).setAll t := rfl

@[simp] theorem Mem.setAll_size (m : Mem) (l : List (Ptr × ℂ)) : (m.setAll l).size = m.size := by
  induction l generalizing m with
  | nil => rfl
  | cons x t ih => obtain ⟨p, v⟩ := x; simp [ih]

theorem Mem.setAll_valid (m : Mem) (l : List (Ptr × ℂ)) (p : Ptr) :
    (m.setAll l).valid p ↔ m.valid p := by
  unfold Mem.valid; simp

theorem Mem.setAll_notin (m : Mem) (l : List (Ptr × ℂ)) (p : Ptr) (h : p ∉ l.map Prod.fst) :
    (m.setAll l).val p = m.val p := by
  induction l generalizing m with
  | nil => rfl
  | cons x t ih =>
    obtain ⟨q, v⟩ := x
    simp only [List.map_cons, List.mem_cons, not_or] at h
    simp only [setAll_cons]
    rw [ih _ h.2, Mem.set_val, if_neg h.1]

theorem Mem.setAll_in (m : Mem) (l : List (Ptr × ℂ)) (hn : (l.map Prod.fst).Nodup) (x : Ptr × ℂ)
    (h : x ∈ l) : (m.setAll l).val x.1 = x.2 := by
  induction l generalizing m with
  | nil => simp at h
  | cons y t ih =>
    obtain ⟨q, v⟩ := y
    simp only [List.map_cons, List.nodup_cons] at hn
    simp only [setAll_cons]
    rcases List.mem_cons.1 h with rfl | h
    · rw [Mem.setAll_notin _ _ _ hn.1, Mem.set_val, if_pos rfl]
    · exact ih _ hn.2 h

/-- Values after a list of stores depend on the old value only at that location. -/
theorem Mem.setAll_congr (m m' : Mem) (l : List (Ptr × ℂ)) (p : Ptr) (h : m.val p = m'.val p) :
    (m.setAll l).val p = (m'.setAll l).val p := by
  induction l generalizing m m' with
  | nil => exact h
  | cons x t ih =>
    obtain ⟨q, v⟩ := x
    simp only [setAll_cons]
    apply ih
    simp only [Mem.set_val]
    split_ifs
    · rfl
    · exact h

/-- The trace of a body depends only on the sizes and on the locations it reads. -/
theorem Body.trace_congr {α : Type} (b : Body α) (m m' : Mem) (hs : m.size = m'.size) (r : List Ptr)
    (ws : List (Ptr × ℂ)) (a : α) (h : b.trace m = .ok (r, ws, a))
    (hv : ∀ p ∈ r, m.val p = m'.val p) : b.trace m' = .ok (r, ws, a) := by
  induction b generalizing m m' r ws with
  | ret x => simpa [Body.trace] using h
  | guard P k ih =>
    simp only [Body.trace] at h ⊢
    split_ifs at h with hP
    rw [if_pos hP]
    exact ih m m' hs r ws h hv
  | rd p k ih =>
    simp only [Body.trace] at h ⊢
    split_ifs at h with hval
    have hval' : m'.valid p := by unfold Mem.valid at *; rw [← hs]; exact hval
    rw [if_pos hval']
    split at h
    · rename_i r' w' a' heq
      simp only [Except.ok.injEq, Prod.mk.injEq] at h
      obtain ⟨rfl, rfl, rfl⟩ := h
      have h1 : m.val p = m'.val p := hv p (List.mem_cons_self ..)
      rw [h1] at heq
      rw [ih _ m m' hs _ _ heq (fun q hq => hv q (List.mem_cons_of_mem _ hq))]
    · simp at h
  | wr p v k ih =>
    simp only [Body.trace] at h ⊢
    split_ifs at h with hval
    have hval' : m'.valid p := by unfold Mem.valid at *; rw [← hs]; exact hval
    rw [if_pos hval']
    split at h
    · rename_i r' w' a' heq
      simp only [Except.ok.injEq, Prod.mk.injEq] at h
      obtain ⟨rfl, rfl, rfl⟩ := h
      rw [ih (m.set p v) (m'.set p v) (by simpa using hs) _ _ heq]
      intro q hq
      simp only [Mem.set_val]
      split_ifs
      · rfl
      · exact hv q hq
    · simp at h

/-- All accesses of the body (run alone from `m`) are valid. -/
def Body.Good {α : Type} : Body α → Mem → Prop
  | .ret _, _ => True
  | .guard P k, m => P ∧ k.Good m
  | .rd p k, m => m.valid p ∧ (k (m.val p)).Good m
  | .wr p v k, m => m.valid p ∧ k.Good (m.set p v)

/-- Locations read by a body run alone from `m`. -/
noncomputable def Body.rds {α : Type} : Body α → Mem → List Ptr
  | .ret _, _ => []
  | .guard _ k, m => k.rds m
  | .rd p k, m => p :: (k (m.val p)).rds m
  | .wr p v k, m => k.rds (m.set p v)

/-- Stores made by a body run alone from `m`. -/
noncomputable def Body.wrs {α : Type} : Body α → Mem → List (Ptr × ℂ)
  | .ret _, _ => []
  | .guard _ k, m => k.wrs m
  | .rd p k, m => (k (m.val p)).wrs m
  | .wr p v k, m => (p, v) :: k.wrs (m.set p v)

/-- Result of a body run alone from `m`. -/
noncomputable def Body.res {α : Type} : Body α → Mem → α
  | .ret a, _ => a
  | .guard _ k, m => k.res m
  | .rd p k, m => (k (m.val p)).res m
  | .wr p v k, m => k.res (m.set p v)

theorem Body.Good.trace {α : Type} (b : Body α) (m : Mem) (h : b.Good m) :
    b.trace m = .ok (b.rds m, b.wrs m, b.res m) := by
  induction b generalizing m with
  | ret a => rfl
  | guard P k ih => simp only [Body.trace, Body.Good] at h ⊢; rw [if_pos h.1, ih m h.2]; rfl
  | rd p k ih => simp only [Body.trace, Body.Good] at h ⊢; rw [if_pos h.1, ih _ m h.2]; rfl
  | wr p v k ih => simp only [Body.trace, Body.Good] at h ⊢; rw [if_pos h.1, ih _ h.2]; rfl

section
variable {α β : Type}
theorem load_bind (p : Ptr) (k : ℂ → Body α) : (load p >>= k) = .rd p k := rfl
theorem store_bind (p : Ptr) (v : ℂ) (k : Unit → Body α) : (store p v >>= k) = .wr p v (k ()) := rfl
theorem get_bind (t : Table) (i : ℕ) (k : ℂ → Body α) :
    (t.get i >>= k) = .guard (t.lo ≤ i ∧ i < t.hi) (k (t.val i)) := rfl
theorem pure_eq_ret (a : α) : (pure a : Body α) = .ret a := rfl
theorem store_def (p : Ptr) (v : ℂ) : store p v = .wr p v (.ret ()) := rfl
theorem load_def (p : Ptr) : load p = .rd p .ret := rfl
end

/-- `c` runs normally from `m` and the final memory satisfies `Q`. -/
def Cmd.Ok {α : Type} (c : Cmd α) (m : Mem) (Q : α → Mem → Prop) : Prop :=
  ∃ a m', c m = .ok (a, m') ∧ Q a m'

theorem Cmd.Ok.bind {α β : Type} {c : Cmd α} {k : α → Cmd β} {m : Mem} {Q : β → Mem → Prop}
    (h : c.Ok m (fun a m' => (k a).Ok m' Q)) : (c >>= k).Ok m Q := by
  obtain ⟨a, m', h1, b, m'', h2, h3⟩ := h
  refine ⟨b, m'', ?_, h3⟩
  show (match c m with | .ok (a, m') => k a m' | .error e => .error e) = _
  rw [h1]
  exact h2

theorem Cmd.Ok.pure {α : Type} {a : α} {m : Mem} {Q : α → Mem → Prop} (h : Q a m) :
    (pure a : Cmd α).Ok m Q := ⟨a, m, rfl, h⟩

theorem Cmd.Ok.mono {α : Type} {c : Cmd α} {m : Mem} {Q Q' : α → Mem → Prop} (h : c.Ok m Q)
    (hQ : ∀ a m', Q a m' → Q' a m') : c.Ok m Q' := by
  obtain ⟨a, m', h1, h2⟩ := h
  exact ⟨a, m', h1, hQ _ _ h2⟩

theorem Body.run_ok {α : Type} {b : Body α} {m : Mem} {Q : α → Mem → Prop}
    (h : b.Good m) (hQ : Q (b.res m) (m.setAll (b.wrs m))) : Cmd.Ok b.run m Q := by
  refine ⟨_, _, ?_, hQ⟩
  unfold Body.run
  rw [h.trace]

/-- Serial loops by invariant on the number of completed iterations. -/
theorem seqLoop_range' {body : ℕ → Cmd Unit} {n : ℕ} (I : ℕ → Mem → Prop) :
    ∀ (a : ℕ) (m : Mem), I a m →
    (∀ s m, a ≤ s → s < a + n → I s m → (body s).Ok m (fun _ m' => I (s + 1) m')) →
    (seqLoop (List.range' a n) body).Ok m (fun _ m' => I (a + n) m') := by
  induction n with
  | zero => intro a m h0 _; exact ⟨(), m, rfl, h0⟩
  | succ n ih =>
    intro a m h0 hstep
    obtain ⟨_, m1, h1, h2⟩ := hstep a m le_rfl (by omega) h0
    obtain ⟨_, m2, h3, h4⟩ := ih (a + 1) m1 h2 (fun s m hs hs' hI => hstep s m (by omega) (by omega) hI)
    refine ⟨(), m2, ?_, ?_⟩
    · simp only [List.range'_succ, seqLoop, h1]; exact h3
    · rw [show a + (n + 1) = a + 1 + n by omega]; exact h4

/-- The main lemma on parallel loops. -/
theorem par_ok {ι : Type} {l : List ι} (hnd : l.Nodup) {body : ι → Body Unit} {m : Mem}
    (hg : ∀ i ∈ l, (body i).Good m)
    (hr : ∀ i ∈ l, ∀ j ∈ l, i ≠ j → ∀ x ∈ (body i).wrs m,
      x.1 ∉ (body j).rds m ∧ x.1 ∉ ((body j).wrs m).map Prod.fst)
    (hn : ∀ i ∈ l, (((body i).wrs m).map Prod.fst).Nodup) :
    (par l body).Ok m (fun _ m' => m'.size = m.size ∧
      (∀ i ∈ l, ∀ x ∈ (body i).wrs m, m'.val x.1 = x.2) ∧
      (∀ p, (∀ i ∈ l, p ∉ ((body i).wrs m).map Prod.fst) → m'.val p = m.val p)) := by
  have ht : ∀ i ∈ l, (body i).trace m = .ok ((body i).rds m, (body i).wrs m, ()) :=
    fun i hi => (hg i hi).trace
  generalize hR : (fun i => (body i).rds m) = R
  generalize hW : (fun i => (body i).wrs m) = Ws
  have hR' : ∀ i, (body i).rds m = R i := fun i => congrFun hR i
  have hW' : ∀ i, (body i).wrs m = Ws i := fun i => congrFun hW i
  simp only [hR', hW'] at *
  have hrf : RaceFree l body m := by
    refine ⟨hnd, fun i hi => ⟨_, _, ht i hi⟩, ?_⟩
    intro i hi j hj hij ri wi rj wj h1 h2 x hx
    rw [ht i hi] at h1
    rw [ht j hj] at h2
    simp only [Except.ok.injEq, Prod.mk.injEq] at h1 h2
    obtain ⟨rfl, rfl, _⟩ := h1
    obtain ⟨rfl, rfl, _⟩ := h2
    exact hr i hi j hj hij x hx
  unfold Cmd.Ok par
  simp only [if_pos hrf]
  -- generalize over the part of the list still to be run
  have key : ∀ (l2 l1 : List ι) (mk : Mem), l1 ++ l2 = l → mk.size = m.size →
      (∀ i ∈ l1, ∀ x ∈ Ws i, mk.val x.1 = x.2) →
      (∀ p, (∀ i ∈ l1, p ∉ (Ws i).map Prod.fst) → mk.val p = m.val p) →
      ∃ m', seqLoop l2 (fun i => (body i).run) mk = .ok ((), m') ∧ m'.size = m.size ∧
        (∀ i ∈ l, ∀ x ∈ Ws i, m'.val x.1 = x.2) ∧
        (∀ p, (∀ i ∈ l, p ∉ (Ws i).map Prod.fst) → m'.val p = m.val p) := by
    intro l2
    induction l2 with
    | nil =>
      intro l1 mk hl hs h1 h2
      simp only [List.append_nil] at hl
      subst hl
      exact ⟨mk, rfl, hs, h1, h2⟩
    | cons i l2 ih =>
      intro l1 mk hl hs h1 h2
      have hil : i ∈ l := by rw [← hl]; simp
      have hi1 : i ∉ l1 := by
        rw [← hl] at hnd
        have := List.nodup_append.1 hnd
        intro hc
        exact this.2.2 i hc i (by simp) rfl
      have hsub : ∀ j ∈ l1, j ∈ l := by intro j hj; rw [← hl]; simp [hj]
      have htr : (body i).trace mk = .ok (R i, Ws i, ()) := by
        apply Body.trace_congr _ m mk hs.symm _ _ _ (ht i hil)
        intro p hp
        symm
        apply h2
        intro j hj hpj
        obtain ⟨x, hx, rfl⟩ := List.mem_map.1 hpj
        exact (hr j (hsub j hj) i hil (fun h => hi1 (h ▸ hj)) x hx).1 hp
      obtain ⟨m', hm', hrest⟩ := ih (l1 ++ [i]) (mk.setAll (Ws i)) (by simp [hl]) (by simp [hs])
        (by
          intro j hj x hx
          rcases List.mem_append.1 hj with hj | hj
          · rw [Mem.setAll_notin]
            · exact h1 j hj x hx
            · exact (hr j (hsub j hj) i hil (fun h => hi1 (h ▸ hj)) x hx).2
          · simp only [List.mem_singleton] at hj
            subst hj
            exact Mem.setAll_in _ _ (hn _ hil) x hx)
        (by
          intro p hp
          rw [Mem.setAll_notin]
          · exact h2 p (fun j hj => hp j (by simp [hj]))
          · exact hp i (by simp))
      refine ⟨m', ?_, hrest⟩
      simp only [seqLoop, Body.run, htr]
      exact hm'
  obtain ⟨m', h1, h2⟩ := key l [] m (by simp) rfl (by simp) (by simp)
  exact ⟨(), m', h1, h2⟩

/-- FFT plans. -/
theorem Plan.exec_ok {pl : Plan} {src dst : Ptr} {m : Mem}
    (hin : pl.inplace = decide (src = dst)) (hd : pl.Defined src dst m) :
    (pl.exec src dst).Ok m (fun _ m' => m'.size = m.size ∧
      (∀ c < pl.howmany, ∀ k < pl.n, m'.val (pl.addr dst c k) =
        ∑ j ∈ range pl.n, m.val (pl.addr src c j) * w pl.n (pl.sign * j * k)) ∧
      (∀ p, (∀ c < pl.howmany, ∀ k < pl.n, p ≠ pl.addr dst c k) → m'.val p = m.val p)) := by
  unfold Cmd.Ok Plan.exec
  rw [if_neg (by simp [hin]), if_pos hd]
  refine ⟨(), _, rfl, rfl, ?_, ?_⟩
  · intro c hc k hk
    have h : ∃ ck : ℕ × ℕ, ck.1 < pl.howmany ∧ ck.2 < pl.n ∧ pl.addr dst c k = pl.addr dst ck.1 ck.2 :=
      ⟨(c, k), hc, hk, rfl⟩
    have hs := h.choose_spec
    have := hd.2.1 c hc k hk _ hs.1 _ hs.2.1 hs.2.2
    simp only [dif_pos h]
    rw [← this.1, ← this.2]
  · intro p hp
    simp only
    rw [dif_neg]
    rintro ⟨ck, h1, h2, h3⟩
    exact hp _ h1 _ h2 h3

theorem mem_rng {a b s : ℕ} : s ∈ rng a b ↔ a ≤ s ∧ s < b := by
  unfold rng; rw [List.mem_range'_1]; omega

theorem rng_nodup (a b : ℕ) : (rng a b).Nodup := List.nodup_range' ..

theorem mem_rng2 {a b c d : ℕ} {x : ℕ × ℕ} :
    x ∈ rng2 a b c d ↔ (a ≤ x.1 ∧ x.1 < b) ∧ (c ≤ x.2 ∧ x.2 < d) := by
  obtain ⟨x1, x2⟩ := x
  unfold rng2
  rw [List.pair_mem_product, mem_rng, mem_rng]

theorem rng2_nodup (a b c d : ℕ) : (rng2 a b c d).Nodup := (rng_nodup a b).product (rng_nodup c d)

theorem mem_rng3 {a b c d e f : ℕ} {x : ℕ × ℕ × ℕ} :
    x ∈ rng3 a b c d e f ↔
      (a ≤ x.1 ∧ x.1 < b) ∧ (c ≤ x.2.1 ∧ x.2.1 < d) ∧ (e ≤ x.2.2 ∧ x.2.2 < f) := by
  obtain ⟨x1, x2⟩ := x
  unfold rng3
  rw [List.pair_mem_product, mem_rng, mem_rng2]

theorem rng3_nodup (a b c d e f : ℕ) : (rng3 a b c d e f).Nodup :=
  (rng_nodup a b).product (rng2_nodup c d e f)

end Fftwpp
