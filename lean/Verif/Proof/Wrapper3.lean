import Verif.Proof.Wrapper2

/-!
# The calls of the Python interface: symmetrization of both inputs, then convolution
-/

namespace Fftwpp

section
variable {S : Type} {st : S → Cmd Unit} {wr : Ptr → ℂ → S} {allowed : S → Prop} {mem1 : Mem}

theorem Reach.loop {T : Type} {pst : T → Cmd Unit} : ∀ (l : List T) {mem : Mem}, Reach st allowed mem1 mem →
    (∀ s ∈ l, ∀ mem, Reach st allowed mem1 mem → ∃ mem', pst s mem = .ok ((), mem') ∧ Reach st allowed mem1 mem') →
    ∃ mem', seqLoop l pst mem = .ok ((), mem') ∧ Reach st allowed mem1 mem'
  | [], mem, h, _ => ⟨mem, rfl, h⟩
  | s :: l, mem, h, H => by
    obtain ⟨m1, e1, r1⟩ := H s (by simp) mem h
    obtain ⟨m2, e2, r2⟩ := Reach.loop l r1 fun t ht => H t (by simp [ht])
    refine ⟨m2, ?_, r2⟩
    show (match pst s mem with | .ok (_, m') => seqLoop l pst m' | .error e => .error e) = _
    rw [e1]
    exact e2

/-- Two symmetrizations of different arrays. -/
theorem Reach.symm2 (H : ∀ steps : List S, (∀ s ∈ steps, allowed s) → ∃ m, seqLoop steps st mem1 = .ok ((), m))
    (hw : ∀ p v, st (wr p v) = (store p v).run) {sym : Ptr → Cmd Unit} {n : ℕ} {R : (ℕ → ℂ) → (ℕ → ℂ) → Prop}
    (hsym : ∀ (m : Mem) (f : Ptr), m.block f n → (sym f).Ok m fun _ m' => m.Upd m' (fun p => ∃ k < n, p = f + k) ∧
      R (fun k => m.val (f + k)) (fun k => m'.val (f + k)))
    (hR : ∀ x y x' y', R x y → (∀ k < n, x k = x' k) → (∀ k < n, y k = y' k) → R x' y')
    {a b : Ptr} (ha : ∀ k < n, ∀ v, allowed (wr (a + k) v)) (hb : ∀ k < n, ∀ v, allowed (wr (b + k) v)) (hab : ∀ i < n, ∀ j < n, a + i ≠ b + j)
    {mem : Mem} (h : Reach st allowed mem1 mem) :
    ∃ mem' mem'', sym a mem = .ok ((), mem') ∧ sym b mem' = .ok ((), mem'') ∧ Reach st allowed mem1 mem'' ∧
      mem.Upd mem'' (fun p => ∃ k < n, p = a + k ∨ p = b + k) ∧
      R (fun k => mem.val (a + k)) (fun k => mem''.val (a + k)) ∧ R (fun k => mem.val (b + k)) (fun k => mem''.val (b + k)) := by
  obtain ⟨_, m1, e1, u1, r1⟩ := hsym mem a fun k hk => h.valid H hw (ha k hk 0)
  have h1 := h.upd H hw ha u1
  obtain ⟨_, m2, e2, u2, r2⟩ := hsym m1 b fun k hk => h1.valid H hw (hb k hk 0)
  refine ⟨m1, m2, e1, e2, h1.upd H hw hb u2, ⟨u2.size.trans u1.size, fun p hp => ?_⟩, ?_, ?_⟩
  · rw [u2.frame p fun ⟨k, hk, e⟩ => hp ⟨k, hk, Or.inr e⟩, u1.frame p fun ⟨k, hk, e⟩ => hp ⟨k, hk, Or.inl e⟩]
  · refine hR _ _ _ _ r1 (fun _ _ => rfl) fun k hk => ?_
    exact (u2.frame _ fun ⟨j, hj, e⟩ => hab k hk j hj e).symm
  · refine hR _ _ _ _ r2 (fun k hk => ?_) fun _ _ => rfl
    exact u1.frame _ fun ⟨j, hj, e⟩ => hab j hj k hk e.symm

end

theorem symmetrized2_congr {X Y : ℕ} {D D1 D' D1' : ℕ → ℕ → ℂ} (hX : 0 < X) (hY : 0 < Y) (H : Symmetrized2 X Y D D')
    (e : ∀ i < X, ∀ j < Y, D i j = D1 i j) (e' : ∀ i < X, ∀ j < Y, D' i j = D1' i j) : Symmetrized2 X Y D1 D1' := by
  have h0 : ∀ i : ℤ, cext X (X / 2) (fun a => D1' a 0) i = cext X (X / 2) (fun a => D' a 0) i := by
    intro i
    unfold cext
    split_ifs
    · exact (e' _ (by omega) 0 hY).symm
    · rfl
  refine ⟨fun i => ?_, fun h j hj => ?_, fun i hi h => ?_, fun i hi j hj h h' => ?_, ?_⟩
  · rw [h0, h0]; exact H.herm i
  · rw [← e' 0 hX j hj]; exact H.nyq h j hj
  · rw [← e' i hi 0 hY, ← e i hi 0 hY]; exact H.kept i hi h
  · rw [← e' i hi j hj, ← e i hi j hj]; exact H.lines i hi j hj h h'
  · rw [← e' _ (by omega) 0 hY, ← e _ (by omega) 0 hY]; exact H.origin

end Fftwpp
