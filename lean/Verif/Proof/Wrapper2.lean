import Verif.Proof.Wrapper

/-!
# Histories of the Python interface are histories of the C++ interface
-/

namespace Fftwpp

theorem Cmd.bind_inv {α β : Type} {x : Cmd α} {f : α → Cmd β} {m : Mem} {r : β × Mem} (h : (x >>= f) m = .ok r) : ∃ a m1, x m = .ok (a, m1) ∧ f a m1 = .ok r := by
  change (match x m with | .ok (a, m') => f a m' | .error e => .error e) = .ok r at h
  cases hx : x m with
  | error e => rw [hx] at h; simp at h
  | ok y => rw [hx] at h; exact ⟨y.1, y.2, rfl, h⟩

theorem Conv.new_fft {fft : FftBase} {mult : Multiplier} {Fu : Option PtrArr} {Wu Vu : Option Ptr} {al : Alloc} {m m1 : Mem} {c : Conv}
    (h : Conv.new fft mult Fu Wu Vu al m = .ok (c, m1)) : c.fft = fft := by
  unfold Conv.new at h
  simp only at h
  split_ifs at h
  all_goals first
    | (obtain ⟨_, m2, _, h⟩ := Cmd.bind_inv h
       change Except.ok (_, m2) = _ at h
       simp only [Except.ok.injEq, Prod.mk.injEq] at h
       rw [← h.1])
    | (change Except.ok (_, m) = _ at h
       simp only [Except.ok.injEq, Prod.mk.injEq] at h
       rw [← h.1])

theorem Outer.new_fft {fft : FftBase} {Fu : Option PtrArr} {Wu Vu : Option Ptr} {al : Alloc} {m m1 : Mem} {c : Outer}
    (h : Outer.new fft Fu Wu Vu al m = .ok (c, m1)) : c.fft = fft := by
  unfold Outer.new at h
  simp only at h
  obtain ⟨_, m2, _, h⟩ := Cmd.bind_inv h
  change Except.ok (_, m2) = _ at h
  simp only [Except.ok.injEq, Prod.mk.injEq] at h
  rw [← h.1]

theorem Conv2.new_fft {fftx ffty : FftBase} {mult : Multiplier} {th : ℕ} {Fu : Option PtrArr} {Wu Vu : Option Ptr} {al : Alloc2} {m m1 : Mem} {c : Conv2}
    (h : Conv2.new fftx ffty mult th Fu Wu Vu al m = .ok (c, m1)) : c.x.fft = fftx := by
  unfold Conv2.new at h
  simp only at h
  obtain ⟨_, m2, _, h⟩ := Cmd.bind_inv h
  obtain ⟨x, m3, hx, h⟩ := Cmd.bind_inv h
  change Except.ok (_, m3) = _ at h
  simp only [Except.ok.injEq, Prod.mk.injEq] at h
  rw [← h.1]
  exact Outer.new_fft hx

theorem Conv3.new_fft {fftx ffty fftz : FftBase} {mult : Multiplier} {th thy : ℕ} {Fu : Option PtrArr} {Wu Vu : Option Ptr} {al : Alloc3} {m m1 : Mem} {c : Conv3}
    (h : Conv3.new fftx ffty fftz mult th thy Fu Wu Vu al m = .ok (c, m1)) :
    c.x.fft = if contiguous3 fftx ffty then fftx else fftx.strided ffty.L ffty.C ffty.S := by
  unfold Conv3.new at h
  simp only at h
  obtain ⟨_, m2, _, h⟩ := Cmd.bind_inv h
  obtain ⟨_, m3, _, h⟩ := Cmd.bind_inv h
  obtain ⟨_, m4, _, h⟩ := Cmd.bind_inv h
  obtain ⟨x, m5, hx, h⟩ := Cmd.bind_inv h
  change Except.ok (_, m5) = _ at h
  simp only [Except.ok.injEq, Prod.mk.injEq] at h
  rw [← h.1]
  exact Outer.new_fft hx

/-! ## Reachable memories -/

theorem seqLoop_append {ι : Type} (l l' : List ι) (body : ι → Cmd Unit) : ∀ m : Mem, seqLoop (l ++ l') body m =
    (match seqLoop l body m with | .ok (_, m') => seqLoop l' body m' | .error e => .error e) := by
  induction l with
  | nil => intro m; rfl
  | cons i l ih =>
    intro m
    show (match body i m with | .ok (_, m') => seqLoop (l ++ l') body m' | .error e => .error e) =
      (match (match body i m with | .ok (_, m') => seqLoop l body m' | .error e => .error e) with
        | .ok (_, m') => seqLoop l' body m' | .error e => .error e)
    cases hb : body i m with
    | error e => rfl
    | ok y => exact ih y.2

theorem seqLoop_one {ι : Type} (i : ι) (body : ι → Cmd Unit) (m : Mem) : seqLoop [i] body m = body i m := by
  show (match body i m with | .ok (_, m') => Except.ok ((), m') | .error e => Except.error e) = _
  cases hb : body i m <;> rfl

theorem store_ok {p : Ptr} (v : ℂ) {m : Mem} (hp : m.valid p) : ∃ m', (store p v).run m = .ok ((), m') ∧ m.Upd m' (fun q => q = p) ∧ m'.val p = v := by
  obtain ⟨a, m', e, h⟩ : ((store p v).run).Ok m fun _ m' => m.Upd m' (fun q => q = p) ∧ m'.val p = v := by
    refine run_map1 p v ?_ ?_ ?_
    · body_simp
      exact hp
    · body_simp
    · intro m' u e
      exact ⟨u, e⟩
  exact ⟨m', e, h⟩

theorem store_valid {p : Ptr} {v : ℂ} {m m' : Mem} (h : (store p v).run m = .ok ((), m')) : m.valid p := by
  by_contra hp
  unfold Body.run Body.trace store at h
  simp [hp] at h

section
variable {S : Type} {st : S → Cmd Unit} {wr : Ptr → ℂ → S} {allowed : S → Prop} {mem1 : Mem}

/-- The memory is reached by allowed steps. -/
def Reach (st : S → Cmd Unit) (allowed : S → Prop) (mem1 mem : Mem) : Prop :=
  ∃ steps : List S, (∀ s ∈ steps, allowed s) ∧ seqLoop steps st mem1 = .ok ((), mem)

theorem Reach.nil : Reach st allowed mem1 mem1 := ⟨[], by simp, rfl⟩

theorem Reach.next (H : ∀ steps : List S, (∀ s ∈ steps, allowed s) → ∃ m, seqLoop steps st mem1 = .ok ((), m)) {mem : Mem}
    (h : Reach st allowed mem1 mem) {s : S} (hs : allowed s) : ∃ mem', st s mem = .ok ((), mem') ∧ Reach st allowed mem1 mem' := by
  obtain ⟨l, hl, e⟩ := h
  have hl' : ∀ t ∈ l ++ [s], allowed t := by
    intro t ht
    rw [List.mem_append, List.mem_singleton] at ht
    rcases ht with ht | rfl
    · exact hl t ht
    · exact hs
  obtain ⟨m, em⟩ := H _ hl'
  have e2 := em
  rw [seqLoop_append, e] at e2
  simp only at e2
  rw [seqLoop_one] at e2
  exact ⟨m, e2, _, hl', em⟩

theorem Reach.writes (H : ∀ steps : List S, (∀ s ∈ steps, allowed s) → ∃ m, seqLoop steps st mem1 = .ok ((), m))
    (hw : ∀ p v, st (wr p v) = (store p v).run) {mem : Mem} (h : Reach st allowed mem1 mem) (ptr : ℕ → Ptr) (val : Ptr → ℂ) :
    ∀ n, (∀ k < n, ∀ v, allowed (wr (ptr k) v)) → ∃ mem', Reach st allowed mem1 mem' ∧ mem.Upd mem' (fun p => ∃ k < n, p = ptr k) ∧
      ∀ k < n, mem'.val (ptr k) = val (ptr k)
  | 0, _ => ⟨mem, h, ⟨rfl, fun _ _ => rfl⟩, fun k hk => absurd hk (by omega)⟩
  | n + 1, ha => by
    obtain ⟨m1, r1, u1, e1⟩ := Reach.writes H hw h ptr val n fun k hk => ha k (by omega)
    obtain ⟨m2, e2, r2⟩ := r1.next H (ha n (by omega) (val (ptr n)))
    rw [hw] at e2
    have hv := store_valid e2
    obtain ⟨m3, e3, u3, v3⟩ := store_ok (val (ptr n)) hv
    rw [e3] at e2
    simp only [Except.ok.injEq, Prod.mk.injEq, true_and] at e2
    subst e2
    refine ⟨m3, r2, ⟨u3.size.trans u1.size, fun p hp => ?_⟩, fun k hk => ?_⟩
    · rw [u3.frame p fun he => hp ⟨n, by omega, he⟩, u1.frame p fun ⟨k, hk, he⟩ => hp ⟨k, by omega, he⟩]
    · by_cases hp : ptr k = ptr n
      · rw [hp, v3]
      · rw [u3.frame _ hp, e1 k (by rcases Nat.lt_succ_iff_lt_or_eq.mp hk with h | rfl; exacts [h, absurd rfl hp])]

theorem Reach.valid (H : ∀ steps : List S, (∀ s ∈ steps, allowed s) → ∃ m, seqLoop steps st mem1 = .ok ((), m))
    (hw : ∀ p v, st (wr p v) = (store p v).run) {mem : Mem} (h : Reach st allowed mem1 mem) {p : Ptr} (ha : allowed (wr p 0)) : mem.valid p := by
  obtain ⟨m, e, -⟩ := h.next H ha
  rw [hw] at e
  exact store_valid e

/-- A memory that differs from a reachable one only in words that may be written is reachable. -/
theorem Reach.upd (H : ∀ steps : List S, (∀ s ∈ steps, allowed s) → ∃ m, seqLoop steps st mem1 = .ok ((), m))
    (hw : ∀ p v, st (wr p v) = (store p v).run) {mem mem' : Mem} (h : Reach st allowed mem1 mem) {ptr : ℕ → Ptr} {n : ℕ}
    (ha : ∀ k < n, ∀ v, allowed (wr (ptr k) v)) (u : mem.Upd mem' fun p => ∃ k < n, p = ptr k) : Reach st allowed mem1 mem' := by
  obtain ⟨m, r, u1, e⟩ := h.writes H hw ptr mem'.val n ha
  have : m = mem' := by
    refine Mem.ext (u1.size.trans u.size.symm) (funext fun p => ?_)
    by_cases hp : ∃ k < n, p = ptr k
    · obtain ⟨k, hk, rfl⟩ := hp
      exact e k hk
    · rw [u1.frame p hp, u.frame p hp]
  rwa [← this]

end
end Fftwpp
