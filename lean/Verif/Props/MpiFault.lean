import Verif.Props.MpiConv3

/-!
# C53, C54, C55: what "all runs end properly" rules out

The statements of C53, C54 and C55 say `AllRuns … Finished`.  Here: this is false as soon as one process comes to a computation that faults
(out-of-bounds access, data race), in whatever state the others are.
-/

namespace Fftwpp
open Net

/-- A process that will never be able to continue is not changed by the steps of the others. -/
theorem Net.stuck_keep {V : Type} {e : Eager} {s : St V} {i : ℕ} (hi : ∀ env, (s i).step e i env = none) {k : ℕ} {t : St V} (h : StepN e k s t) :
    t i = s i := by
  induction h with
  | zero s => rfl
  | @succ k s t u h1 h2 ih =>
    obtain ⟨j, p, hp, rfl⟩ := h1
    have hj : j ≠ i := by
      rintro rfl
      rw [hi] at hp
      exact absurd hp (by simp)
    have hs : (Function.update s j p) i = s i := Function.update_of_ne hj.symm _ _
    rw [ih (by rw [hs]; exact hi), hs]

/-- A state from which every run is finite has a run to a state that cannot be continued. -/
theorem Net.exists_end {V : Type} {e : Eager} {s : St V} (h : ∃ n, ∀ k t, StepN e k s t → k ≤ n) : ∃ k t, StepN e k s t ∧ ∀ u, ¬ Step e t u := by
  obtain ⟨n, hn⟩ := h
  induction n generalizing s with
  | zero =>
    refine ⟨0, s, .zero s, fun u hu => ?_⟩
    have := hn 1 u (.succ hu (.zero u))
    omega
  | succ n ih =>
    by_cases hs : ∃ u, Step e s u
    · obtain ⟨u, hu⟩ := hs
      obtain ⟨k, t, h1, h2⟩ := ih (s := u) fun k t hk => by
        have := hn (k + 1) t (.succ hu hk)
        omega
      exact ⟨k + 1, t, .succ hu h1, h2⟩
    · exact ⟨0, s, .zero s, fun u hu => hs ⟨u, hu⟩⟩

/-- **C53, C54, C55**: if one of the processes has come to a computation of the sequential code that faults on its memory, then it is not the case that all runs
end with every process finished: the theorems rule out faults. -/
theorem C53_fault_detected {e : Eager} {P i : ℕ} {s : St ℂ} (hi : i < P) {c : Cmd Unit} {k : Unit → Prog ℂ Unit}
    (hp : (s i).prog = (runCmd c).bind k) {err : Err} (hf : c (mmem (s i).loc) = .error err) {Q : St ℂ → Prop} :
    ¬ AllRuns e s fun f => Finished P f ∧ Q f := by
  rintro ⟨h1, h2⟩
  obtain ⟨n, t, ht, hend⟩ := exists_end h1
  have hstuck : ∀ env, (s i).step e i env = none := by
    intro env
    unfold Proc.step
    rw [hp]
    simp only [runCmd, Prog.call, Prog.bind, Op.exec]
    rw [show toMem (s i).loc.size (s i).loc.mem = mmem (s i).loc from rfl, hf]
    simp
  have := ((h2 n t ht hend).1.1 i hi).1
  rw [stuck_keep hstuck ht, hp] at this
  simp [runCmd, Prog.call, Prog.bind] at this

/-- The same for an element read or written by the communication layer outside its array (`moves`, `store`). -/
theorem C53_fault_store {V : Type} {e : Eager} {P i : ℕ} {s : St V} (hi : i < P) {a : Loc} {v : V} {k : Prog V Unit}
    (hp : (s i).prog = .op (.store a v) k) (ha : ¬ (s i).loc.inBounds a) {Q : St V → Prop} : ¬ AllRuns e s fun f => Finished P f ∧ Q f := by
  rintro ⟨h1, h2⟩
  obtain ⟨n, t, ht, hend⟩ := exists_end h1
  have hstuck : ∀ env, (s i).step e i env = none := by
    intro env
    unfold Proc.step
    rw [hp]
    simp only [Op.exec]
    rw [if_neg fun h => ha h.1]
    rfl
  have := ((h2 n t ht hend).1.1 i hi).1
  rw [stuck_keep hstuck ht, hp] at this
  simp at this

/-- A case in which the hypotheses are met: process 1 of 2 stores a word at the end of an array of 100 words. -/
example : ∃ (s : St ℂ) (c : Cmd Unit) (err : Err), (s 1).prog = (runCmd c).bind (fun _ => .ret ()) ∧ c (mmem (s 1).loc) = .error err := by
  refine ⟨fun r => ⟨(runCmd (store ⟨0, 100⟩ 1).run).bind fun _ => .ret (), exState (fun _ => Fft.exMem 100) r⟩, (store ⟨0, 100⟩ 1).run, .ub, rfl, ?_⟩
  beta_reduce
  rw [exState_mem]
  unfold Body.run store Body.trace
  have hv : ¬ (Fft.exMem 100).valid ⟨0, 100⟩ := by
    intro h
    have : (100 : ℤ) < ((100 : ℕ) : ℤ) := h.2
    omega
  rw [if_neg hv]

end Fftwpp
