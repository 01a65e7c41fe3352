import Verif.Proof.HBInner2

/-! The routines for one copy are those for many copies with `C=1`. -/

namespace Fftwpp

/-- Every postcondition guaranteed by `c` is guaranteed by `c'`. -/
def Cmd.Le {α : Type} (c c' : Cmd α) : Prop := ∀ m Q, c.Ok m Q → c'.Ok m Q

namespace Cmd.Le
variable {α β : Type}
theorem refl (c : Cmd α) : Cmd.Le c c := fun _ _ h => h
theorem bind {c c' : Cmd α} {k k' : α → Cmd β} (h : Cmd.Le c c') (hk : ∀ a, Cmd.Le (k a) (k' a)) : Cmd.Le (c >>= k) (c' >>= k') := by
  intro m Q hok
  refine Cmd.Ok.bind (h m _ ?_)
  obtain ⟨b, m2, e, hq⟩ := hok
  rcases e1 : c m with _ | ⟨a, m1⟩
  · change (match c m with | .ok (a, m') => k a m' | .error e => .error e) = _ at e
    rw [e1] at e
    cases e
  · refine ⟨a, m1, e1, hk a m1 Q ?_⟩
    refine ⟨b, m2, ?_, hq⟩
    change (match c m with | .ok (a, m') => k a m' | .error e => .error e) = _ at e
    rw [e1] at e
    exact e
theorem run {f : ℕ → Body Unit} {b : Body Unit} (hb : f 0 = b) : Cmd.Le (par (rng 0 1) f) b.run := by
  intro m Q h
  subst hb
  obtain ⟨⟨⟩, m', e, hq⟩ := h
  unfold par at e
  split_ifs at e with hr
  simp only [rng, Nat.sub_zero, List.range'_one, seqLoop] at e
  refine ⟨(), m', ?_, hq⟩
  rcases e' : (f 0).run m with _ | ⟨⟨⟩, m2⟩
  · rw [e'] at e; cases e
  · rw [e'] at e; exact e
end Cmd.Le

theorem par_map {ι κ : Type} (φ : ι → κ) (hφ : Function.Injective φ) (l : List ι) (body : κ → Body Unit) :
    par (l.map φ) body = par l (fun i => body (φ i)) := by
  funext m
  have h1 : RaceFree (l.map φ) body m ↔ RaceFree l (fun i => body (φ i)) m := by
    unfold RaceFree
    simp only [List.nodup_map_iff hφ, List.forall_mem_map, ne_eq, hφ.eq_iff]
  have h2 : ∀ l : List ι, seqLoop (l.map φ) (fun i => (body i).run) = seqLoop l (fun i => (body (φ i)).run) := by
    intro l
    induction l with
    | nil => rfl
    | cons i l ih => funext m; simp only [List.map_cons, seqLoop, ih]
  unfold par
  rw [h2]
  by_cases hr : RaceFree l (fun i => body (φ i)) m
  · rw [if_pos hr, if_pos (h1.2 hr)]
  · rw [if_neg hr, if_neg (fun h => hr (h1.1 h))]

theorem par_rng2_one (a b : ℕ) (body : ℕ × ℕ → Body Unit) : par (rng2 a b 0 1) body = par (rng a b) (fun s => body (s, 0)) := by
  have : rng2 a b 0 1 = (rng a b).map fun s => (s, 0) := by
    unfold rng2
    rw [show rng 0 1 = [0] from rfl]
    simp only [List.product, List.map_cons, List.map_nil]
    induction rng a b with
    | nil => rfl
    | cons x l ih => rw [List.flatMap_cons, List.map_cons, ih]; rfl
  rw [this, par_map _ (fun x y h => by simpa using h)]

namespace Herm
open Finset ComplexConjugate
variable {o : Herm} {mem : Mem} {f F W : Ptr} {r : ℕ} {W? : Option Ptr}

theorem pz (p : Ptr) : p + 0 = p := Ptr.add_zero _

theorem forwardExplicit_eq (hC : o.C = 1) : o.forwardExplicit f F W? = o.forwardExplicitMany f F W? := by
  unfold forwardExplicit forwardExplicitMany
  simp only [hC, par_rng2_one, one_mul, pz]

theorem backwardExplicit_eq (hC : o.C = 1) : o.backwardExplicit F f W? = o.backwardExplicitMany F f W? := by
  unfold backwardExplicit backwardExplicitMany
  simp only [hC, par_rng2_one, one_mul, pz]

theorem forward2_le (h : o.WF) (hC : o.C = 1) : Cmd.Le (o.forward2Many f F r W?) (o.forward2 f F r W?) := by
  have hCm : o.Cm = o.m := by rw [h.Cm_eq, hC, one_mul]
  unfold forward2 forward2Many
  simp only [hC, hCm, par_rng2_one, one_mul, pz]
  split_ifs
  · exact Cmd.Le.refl _
  · exact Cmd.Le.bind (Cmd.Le.run (by simp only [pz, mul_zero, Nat.add_zero])) fun _ => Cmd.Le.refl _
  · exact Cmd.Le.bind (Cmd.Le.run (by simp only [pz, mul_zero, Nat.add_zero])) fun _ => Cmd.Le.refl _

theorem backward2_le (h : o.WF) (hC : o.C = 1) : Cmd.Le (o.backward2Many F f r W?) (o.backward2 F f r W?) := by
  have hCm : o.Cm = o.m := by rw [h.Cm_eq, hC, one_mul]
  unfold backward2 backward2Many
  simp only [hC, hCm, par_rng2_one, one_mul, pz, C30_zmult2, C30_zmult2_xy, zmult2_xy_hconj, C30_conj]
  refine Cmd.Le.bind (Cmd.Le.refl _) fun _ => ?_
  split_ifs
  · refine Cmd.Le.bind (Cmd.Le.refl _) fun _ => Cmd.Le.bind (Cmd.Le.refl _) fun _ => ?_
    exact Cmd.Le.run (by simp only [pz, mul_zero, Nat.add_zero])
  · exact Cmd.Le.refl _
  · refine Cmd.Le.bind (Cmd.Le.refl _) fun _ => Cmd.Le.bind (Cmd.Le.run (by simp only [pz, mul_zero, Nat.add_zero])) fun _ => Cmd.Le.bind (Cmd.Le.refl _) fun _ => Cmd.Le.bind (Cmd.Le.refl _) fun _ => ?_
    exact Cmd.Le.run (by simp only [pz, mul_zero, Nat.add_zero])
  · exact Cmd.Le.bind (Cmd.Le.refl _) fun _ => Cmd.Le.bind (Cmd.Le.run (by simp only [pz, mul_zero, Nat.add_zero])) fun _ => Cmd.Le.refl _
  · refine Cmd.Le.bind (Cmd.Le.refl _) fun _ => Cmd.Le.bind (Cmd.Le.run (by simp only [pz, mul_zero, Nat.add_zero])) fun _ => Cmd.Le.bind (Cmd.Le.refl _) fun _ => Cmd.Le.bind (Cmd.Le.refl _) fun _ => ?_
    exact Cmd.Le.run (by simp only [pz, mul_zero, Nat.add_zero])
  · exact Cmd.Le.bind (Cmd.Le.refl _) fun _ => Cmd.Le.bind (Cmd.Le.run (by simp only [pz, mul_zero, Nat.add_zero])) fun _ => Cmd.Le.refl _

end Herm
end Fftwpp
