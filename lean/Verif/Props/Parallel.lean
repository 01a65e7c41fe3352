import Verif.Proof.MemLemmas
import Mathlib.Algebra.BigOperators.Group.Finset.Piecewise

/-!
# C14: parallel loops are race free and independent of the schedule

The routines are modelled with `par`, which is undefined behaviour unless the loop is race free, and otherwise has the result of
the serial loop.  Here is the operational justification: threads executing the iterations, interleaving single loads and
stores in shared memory in any order.
-/

namespace Fftwpp
open Finset

/-- What remains to be executed by each thread. -/
abbrev Pool (T : Type) := T → Body Unit

/-- A thread executes its iterations one after the other. -/
def threadProg {ι : Type} (body : ι → Body Unit) (its : List ι) : Body Unit :=
  its.foldr (fun i rest => body i >>= fun _ => rest) (pure ())

/-- One thread performs one action (a table access, a load or a store) on the shared memory. -/
inductive PStep {T : Type} [DecidableEq T] : Pool T × Mem → Pool T × Mem → Prop where
  | guard {pool : Pool T} {m : Mem} {t : T} {P : Prop} {k : Body Unit} : pool t = .guard P k → P →
      PStep (pool, m) (Function.update pool t k, m)
  | rd {pool : Pool T} {m : Mem} {t : T} {p : Ptr} {k : ℂ → Body Unit} : pool t = .rd p k → m.valid p →
      PStep (pool, m) (Function.update pool t (k (m.val p)), m)
  | wr {pool : Pool T} {m : Mem} {t : T} {p : Ptr} {v : ℂ} {k : Body Unit} : pool t = .wr p v k → m.valid p →
      PStep (pool, m) (Function.update pool t k, m.set p v)

/-- Some thread is about to perform an invalid access. -/
def Fault {T : Type} (c : Pool T × Mem) : Prop :=
  ∃ t, match c.1 t with
    | .ret _ => False
    | .guard P _ => ¬ P
    | .rd p _ => ¬ c.2.valid p
    | .wr p _ _ => ¬ c.2.valid p

/-- All threads have finished. -/
def Finished {T : Type} (c : Pool T × Mem) : Prop := ∀ t, ∃ a, c.1 t = .ret a

/-- An execution of `n` steps. -/
inductive Exec {T : Type} [DecidableEq T] (c0 : Pool T × Mem) : ℕ → Pool T × Mem → Prop where
  | start : Exec c0 0 c0
  | step {n : ℕ} {c c' : Pool T × Mem} : Exec c0 n c → PStep c c' → Exec c0 (n + 1) c'

/-- The iterations of `l` are distributed over the threads. -/
structure Distribution {ι T : Type} (l : List ι) (assign : T → List ι) : Prop where
  nodup : ∀ t, (assign t).Nodup
  sub : ∀ t, ∀ i ∈ assign t, i ∈ l
  cover : ∀ i ∈ l, ∃ t, i ∈ assign t
  disjoint : ∀ t t', t ≠ t' → ∀ i ∈ assign t, i ∉ assign t'

/-- Number of actions of a body run alone. -/
noncomputable def Body.steps {α : Type} : Body α → Mem → ℕ
  | .ret _, _ => 0
  | .guard _ k, m => k.steps m + 1
  | .rd p k, m => (k (m.val p)).steps m + 1
  | .wr p v k, m => k.steps (m.set p v) + 1

theorem Mem.setAll_append (m : Mem) (a b : List (Ptr × ℂ)) : m.setAll (a ++ b) = (m.setAll a).setAll b := by
  induction a generalizing m with
  | nil => rfl
  | cons x t ih => obtain ⟨p, v⟩ := x; simp [ih]

theorem Body.trace_bind {α β : Type} (b : Body α) (k : α → Body β) {m : Mem} {r ws a r2 w2 a2}
    (h1 : b.trace m = .ok (r, ws, a)) (h2 : (k a).trace (m.setAll ws) = .ok (r2, w2, a2)) :
    (b >>= k).trace m = .ok (r ++ r2, ws ++ w2, a2) := by
  show (b.bind k).trace m = _
  induction b generalizing m r ws with
  | ret x =>
    simp only [Body.trace, Except.ok.injEq, Prod.mk.injEq] at h1
    obtain ⟨rfl, rfl, rfl⟩ := h1
    exact h2
  | guard P b ih =>
    simp only [Body.trace, Body.bind] at h1 ⊢
    split_ifs at h1 with hP
    rw [if_pos hP]
    exact ih h1 h2
  | rd p b ih =>
    simp only [Body.trace, Body.bind] at h1 ⊢
    split_ifs at h1 with hP
    rw [if_pos hP]
    split at h1
    · rename_i r' w' a' heq
      simp only [Except.ok.injEq, Prod.mk.injEq] at h1
      obtain ⟨rfl, rfl, rfl⟩ := h1
      rw [ih _ heq h2]
      rfl
    · simp at h1
  | wr p v b ih =>
    simp only [Body.trace, Body.bind] at h1 ⊢
    split_ifs at h1 with hP
    rw [if_pos hP]
    split at h1
    · rename_i r' w' a' heq
      simp only [Except.ok.injEq, Prod.mk.injEq] at h1
      obtain ⟨rfl, rfl, rfl⟩ := h1
      rw [ih heq (by simpa using h2)]
      rfl
    · simp at h1

section
variable {ι T : Type} {l : List ι} {body : ι → Body Unit} {m : Mem} {R : ι → List Ptr} {Ws : ι → List (Ptr × ℂ)}

/-- The trace of a thread running alone. -/
theorem thread_trace (ht : ∀ i ∈ l, (body i).trace m = .ok (R i, Ws i, ()))
    (hr : ∀ i ∈ l, ∀ j ∈ l, i ≠ j → ∀ x ∈ Ws i, x.1 ∉ R j ∧ x.1 ∉ (Ws j).map Prod.fst) (L : List ι) :
    ∀ mk : Mem, L.Nodup → (∀ i ∈ L, i ∈ l) → m.size = mk.size → (∀ i ∈ L, ∀ p ∈ R i, m.val p = mk.val p) →
      (threadProg body L).trace mk = .ok (L.flatMap R, L.flatMap Ws, ()) := by
  induction L with
  | nil => intro mk _ _ _ _; rfl
  | cons i L ih =>
    intro mk hnd hsub hs hv
    have hi : i ∈ l := hsub i (by simp)
    have h1 := Body.trace_congr _ m mk hs _ _ _ (ht i hi) (hv i (by simp))
    refine Body.trace_bind _ _ h1 (ih _ (List.nodup_cons.1 hnd).2 (fun j hj => hsub j (by simp [hj])) (by simpa using hs) ?_)
    intro j hj p hp
    rw [Mem.setAll_notin]
    · exact hv j (by simp [hj]) p hp
    · intro hc
      obtain ⟨x, hx, rfl⟩ := List.mem_map.1 hc
      have hne : i ≠ j := by
        rintro rfl
        exact (List.nodup_cons.1 hnd).1 hj
      exact (hr i hi j (hsub j (by simp [hj])) hne x hx).1 hp

/-- The value at a location written by iteration `i` depends on that iteration only. -/
theorem flat_val (hr : ∀ i ∈ l, ∀ j ∈ l, i ≠ j → ∀ x ∈ Ws i, x.1 ∉ R j ∧ x.1 ∉ (Ws j).map Prod.fst) {i : ι} (hi : i ∈ l) {p : Ptr}
    (hp : p ∈ (Ws i).map Prod.fst) (L : List ι) :
    ∀ mk : Mem, L.Nodup → (∀ j ∈ L, j ∈ l) → (i ∈ L → mk.val p = m.val p) → (i ∉ L → mk.val p = (m.setAll (Ws i)).val p) →
      (mk.setAll (L.flatMap Ws)).val p = (m.setAll (Ws i)).val p := by
  induction L with
  | nil => intro mk _ _ _ h; exact h (by simp)
  | cons j L ih =>
    intro mk hnd hsub h1 h2
    rw [List.flatMap_cons, Mem.setAll_append]
    have hnd' := List.nodup_cons.1 hnd
    refine ih _ hnd'.2 (fun k hk => hsub k (by simp [hk])) ?_ ?_
    · intro hiL
      have hij : i ≠ j := by rintro rfl; exact hnd'.1 hiL
      rw [Mem.setAll_notin]
      · exact h1 (by simp [hiL])
      · obtain ⟨x, hx, rfl⟩ := List.mem_map.1 hp
        exact (hr i hi j (hsub j (by simp)) hij x hx).2
    · intro hiL
      by_cases hij : i = j
      · subst hij
        exact Mem.setAll_congr _ _ _ _ (h1 (by simp))
      · rw [Mem.setAll_notin]
        · exact h2 (by simp [hij, hiL])
        · obtain ⟨x, hx, rfl⟩ := List.mem_map.1 hp
          exact (hr i hi j (hsub j (by simp)) hij x hx).2

/-- The serial loop performs the stores of all iterations. -/
theorem seqLoop_setAll (ht : ∀ i ∈ l, (body i).trace m = .ok (R i, Ws i, ()))
    (hr : ∀ i ∈ l, ∀ j ∈ l, i ≠ j → ∀ x ∈ Ws i, x.1 ∉ R j ∧ x.1 ∉ (Ws j).map Prod.fst) (L : List ι) :
    ∀ mk : Mem, L.Nodup → (∀ i ∈ L, i ∈ l) → m.size = mk.size → (∀ i ∈ L, ∀ p ∈ R i, m.val p = mk.val p) →
      seqLoop L (fun i => (body i).run) mk = .ok ((), mk.setAll (L.flatMap Ws)) := by
  induction L with
  | nil => intro mk _ _ _ _; rfl
  | cons i L ih =>
    intro mk hnd hsub hs hv
    have hi : i ∈ l := hsub i (by simp)
    have h1 := Body.trace_congr _ m mk hs _ _ _ (ht i hi) (hv i (by simp))
    simp only [seqLoop, Body.run, h1]
    rw [List.flatMap_cons, Mem.setAll_append]
    refine ih _ (List.nodup_cons.1 hnd).2 (fun j hj => hsub j (by simp [hj])) (by simpa using hs) ?_
    intro j hj p hp
    rw [Mem.setAll_notin]
    · exact hv j (by simp [hj]) p hp
    · intro hc
      obtain ⟨x, hx, rfl⟩ := List.mem_map.1 hc
      have hne : i ≠ j := by
        rintro rfl
        exact (List.nodup_cons.1 hnd).1 hj
      exact (hr i hi j (hsub j (by simp [hj])) hne x hx).1 hp

end

/-- State of an interleaved execution: thread `t` has made the stores `ws t`, exactly as if it ran alone from `m`. -/
structure ParInv {T : Type} (m : Mem) (R : T → List Ptr) (W : T → List (Ptr × ℂ)) (c : Pool T × Mem) (ws : T → List (Ptr × ℂ)) : Prop where
  solo : ∀ t, ∃ r' w', (c.1 t).trace (m.setAll (ws t)) = .ok (r', w', ()) ∧ W t = ws t ++ w' ∧ ∀ p ∈ r', p ∈ R t
  size : c.2.size = m.size
  own : ∀ t, ∀ p ∈ (ws t).map Prod.fst, c.2.val p = (m.setAll (ws t)).val p
  other : ∀ p, (∀ t, p ∉ (ws t).map Prod.fst) → c.2.val p = m.val p

theorem ParInv.agree {T : Type} {m : Mem} {R : T → List Ptr} {W : T → List (Ptr × ℂ)} {c : Pool T × Mem} {ws : T → List (Ptr × ℂ)}
    (hd : ∀ t t', t ≠ t' → ∀ x ∈ W t, x.1 ∉ R t' ∧ x.1 ∉ (W t').map Prod.fst) (h : ParInv m R W c ws) (t : T) {p : Ptr}
    (hp : p ∈ R t) : c.2.val p = (m.setAll (ws t)).val p := by
  by_cases hin : p ∈ (ws t).map Prod.fst
  · exact h.own t p hin
  · rw [Mem.setAll_notin _ _ _ hin]
    apply h.other
    intro t' hc
    by_cases htt : t' = t
    · subst htt; exact hin hc
    · obtain ⟨x, hx, rfl⟩ := List.mem_map.1 hc
      obtain ⟨_, w', _, hW, _⟩ := h.solo t'
      exact (hd t' t htt x (by rw [hW]; simp [hx])).1 hp

theorem ParInv.noFault {T : Type} {m : Mem} {R : T → List Ptr} {W : T → List (Ptr × ℂ)} {c : Pool T × Mem} {ws : T → List (Ptr × ℂ)}
    (h : ParInv m R W c ws) : ¬ Fault c := by
  rintro ⟨t, hf⟩
  obtain ⟨r', w', htr, _, _⟩ := h.solo t
  have hval : ∀ p, c.2.valid p ↔ (m.setAll (ws t)).valid p := by
    intro p
    rw [Mem.setAll_valid]
    unfold Mem.valid
    rw [h.size]
  cases hb : c.1 t with
  | ret a => rw [hb] at hf; exact hf
  | guard P k =>
    rw [hb] at hf htr
    simp only [Body.trace, if_neg hf] at htr
    simp at htr
  | rd p k =>
    rw [hb] at hf htr
    simp only [hval] at hf
    simp only [Body.trace, if_neg hf] at htr
    simp at htr
  | wr p v k =>
    rw [hb] at hf htr
    simp only [hval] at hf
    simp only [Body.trace, if_neg hf] at htr
    simp at htr

theorem ParInv.step {T : Type} [DecidableEq T] [Fintype T] {m : Mem} {R : T → List Ptr} {W : T → List (Ptr × ℂ)} {c c' : Pool T × Mem}
    {ws : T → List (Ptr × ℂ)} (hd : ∀ t t', t ≠ t' → ∀ x ∈ W t, x.1 ∉ R t' ∧ x.1 ∉ (W t').map Prod.fst)
    (h : ParInv m R W c ws) (hs : PStep c c') :
    ∃ ws', ParInv m R W c' ws' ∧ ∑ t, (c'.1 t).steps (m.setAll (ws' t)) + 1 = ∑ t, (c.1 t).steps (m.setAll (ws t)) := by
  have hsum : ∀ (t : T) (f g : T → ℕ), (∀ t', t' ≠ t → f t' = g t') → f t + 1 = g t → ∑ t, f t + 1 = ∑ t, g t := by
    intro t f g h1 h2
    have e : ∑ x ∈ Finset.univ.erase t, f x = ∑ x ∈ Finset.univ.erase t, g x :=
      Finset.sum_congr rfl (fun x hx => h1 x (Finset.ne_of_mem_erase hx))
    have a := Finset.add_sum_erase _ f (Finset.mem_univ t)
    have b := Finset.add_sum_erase _ g (Finset.mem_univ t)
    omega
  cases hs with
  | @guard pool mem t P k hb hP =>
    refine ⟨ws, ⟨?_, h.size, h.own, h.other⟩, ?_⟩
    · intro t'
      by_cases htt : t' = t
      · subst htt
        obtain ⟨r', w', h1, h2, h3⟩ := h.solo t'
        simp only at h1
        rw [hb] at h1
        simp only [Body.trace, if_pos hP] at h1
        simp only [Function.update_self]
        exact ⟨r', w', h1, h2, h3⟩
      · simp only [Function.update_of_ne htt]
        exact h.solo t'
    · apply hsum t
      · intro t' htt
        simp only [Function.update_of_ne htt]
      · simp only [Function.update_self, hb, Body.steps]
  | @rd pool mem t p k hb hv =>
    obtain ⟨r', w', h1, h2, h3⟩ := h.solo t
    simp only at h1
    rw [hb] at h1
    simp only [Body.trace] at h1
    split_ifs at h1 with hv'
    split at h1
    · rename_i r2 w2 a2 heq
      simp only [Except.ok.injEq, Prod.mk.injEq] at h1
      obtain ⟨rfl, rfl, _⟩ := h1
      have hag : mem.val p = (m.setAll (ws t)).val p := h.agree hd t (h3 p (by simp))
      refine ⟨ws, ⟨?_, h.size, h.own, h.other⟩, ?_⟩
      · intro t'
        by_cases htt : t' = t
        · subst htt
          simp only [Function.update_self]
          rw [hag]
          exact ⟨r2, w2, heq, h2, fun q hq => h3 q (by simp [hq])⟩
        · simp only [Function.update_of_ne htt]
          exact h.solo t'
      · apply hsum t
        · intro t' htt
          simp only [Function.update_of_ne htt]
        · simp only [Function.update_self, hb, Body.steps, hag]
    · simp at h1
  | @wr pool mem t p v k hb hv =>
    obtain ⟨r', w', h1, h2, h3⟩ := h.solo t
    simp only at h1
    rw [hb] at h1
    simp only [Body.trace] at h1
    split_ifs at h1 with hv'
    split at h1
    · rename_i r2 w2 a2 heq
      simp only [Except.ok.injEq, Prod.mk.injEq] at h1
      obtain ⟨rfl, rfl, _⟩ := h1
      have hset : m.setAll (ws t ++ [(p, v)]) = (m.setAll (ws t)).set p v := by rw [Mem.setAll_append]; rfl
      have hpW : (p, v) ∈ W t := by rw [h2]; simp
      have hpo : ∀ t', t' ≠ t → p ∉ (ws t').map Prod.fst := by
        intro t' htt hc
        obtain ⟨_, w3, _, h4, _⟩ := h.solo t'
        refine (hd t t' (Ne.symm htt) _ hpW).2 ?_
        rw [h4, List.map_append]
        exact List.mem_append_left _ hc
      refine ⟨Function.update ws t (ws t ++ [(p, v)]), ⟨?_, ?_, ?_, ?_⟩, ?_⟩
      · intro t'
        by_cases htt : t' = t
        · subst htt
          simp only [Function.update_self, hset]
          exact ⟨r2, w2, heq, by rw [h2]; simp, h3⟩
        · simp only [Function.update_of_ne htt]
          exact h.solo t'
      · simpa using h.size
      · intro t' q hq
        by_cases htt : t' = t
        · subst htt
          simp only [Function.update_self, hset, List.map_append, List.mem_append] at hq ⊢
          simp only [Mem.set_val]
          split_ifs with hqp
          · rfl
          · refine h.own t' q ?_
            rcases hq with hq | hq
            · exact hq
            · simp at hq; exact absurd hq hqp
        · simp only [Function.update_of_ne htt] at hq ⊢
          have hqp : q ≠ p := fun e => hpo t' htt (e ▸ hq)
          simp only [Mem.set_val, if_neg hqp]
          exact h.own t' q hq
      · intro q hq
        have hqp : q ≠ p := by
          rintro rfl
          have := hq t
          simp at this
        simp only [Mem.set_val, if_neg hqp]
        refine h.other q ?_
        intro t'
        by_cases htt : t' = t
        · subst htt
          have := hq t'
          simp only [Function.update_self, List.map_append, List.mem_append, not_or] at this
          exact this.1
        · have := hq t'
          rwa [Function.update_of_ne htt] at this
      · apply hsum t
        · intro t' htt
          simp only [Function.update_of_ne htt]
        · simp only [Function.update_self, hb, Body.steps, hset]
    · simp at h1

/-- **C14**: let an OpenMP loop be executed without undefined behaviour in the model (`par l body m = ok`).  Then for every number
of threads, every distribution of the iterations over the threads (each thread running its iterations in any order) and every
interleaving of the single loads and stores of the threads on shared memory:
* no thread ever makes an invalid access, and an unfinished execution can continue;
* every execution ends after a bounded number of steps;
* when all threads have finished, the memory is that of the serial loop. -/
theorem C14_interleaving {ι T : Type} [Fintype T] [DecidableEq T] {l : List ι} {body : ι → Body Unit} {m m' : Mem}
    (hpar : par l body m = .ok ((), m')) {assign : T → List ι} (ha : Distribution l assign) :
    ∃ N, ∀ n c, Exec (fun t => threadProg body (assign t), m) n c →
      n ≤ N ∧ ¬ Fault c ∧ (Finished c ∨ ∃ c', PStep c c') ∧ (Finished c → c.2 = m') := by
  unfold par at hpar
  split_ifs at hpar with hrf
  obtain ⟨hnd, hok, hdis⟩ := hrf
  choose! R Ws ht using hok
  have hr : ∀ i ∈ l, ∀ j ∈ l, i ≠ j → ∀ x ∈ Ws i, x.1 ∉ R j ∧ x.1 ∉ (Ws j).map Prod.fst :=
    fun i hi j hj hij => hdis i hi j hj hij _ _ _ _ (ht i hi) (ht j hj)
  have hm' : m' = m.setAll (l.flatMap Ws) := by
    have := seqLoop_setAll ht hr l m hnd (fun _ h => h) rfl (fun _ _ _ _ => rfl)
    rw [this] at hpar
    simpa using hpar.symm
  -- the threads
  have hthr : ∀ t, (threadProg body (assign t)).trace m = .ok ((assign t).flatMap R, (assign t).flatMap Ws, ()) :=
    fun t => thread_trace ht hr (assign t) m (ha.nodup t) (ha.sub t) rfl (fun _ _ _ _ => rfl)
  have hd : ∀ t t', t ≠ t' → ∀ x ∈ (assign t).flatMap Ws, x.1 ∉ (assign t').flatMap R ∧ x.1 ∉ ((assign t').flatMap Ws).map Prod.fst := by
    intro t t' htt x hx
    obtain ⟨i, hi, hxi⟩ := List.mem_flatMap.1 hx
    constructor
    · intro hc
      obtain ⟨j, hj, hxj⟩ := List.mem_flatMap.1 hc
      have hij : i ≠ j := by rintro rfl; exact ha.disjoint t t' htt i hi hj
      exact (hr i (ha.sub t i hi) j (ha.sub t' j hj) hij x hxi).1 hxj
    · intro hc
      obtain ⟨y, hy, hxy⟩ := List.mem_map.1 hc
      obtain ⟨j, hj, hyj⟩ := List.mem_flatMap.1 hy
      have hij : i ≠ j := by rintro rfl; exact ha.disjoint t t' htt i hi hj
      refine (hr i (ha.sub t i hi) j (ha.sub t' j hj) hij x hxi).2 ?_
      rw [← hxy]
      exact List.mem_map_of_mem hyj
  have hinv : ∀ n c, Exec (fun t => threadProg body (assign t), m) n c →
      ∃ ws, ParInv m (fun t => (assign t).flatMap R) (fun t => (assign t).flatMap Ws) c ws ∧
        ∑ t, (c.1 t).steps (m.setAll (ws t)) + n = ∑ t, (threadProg body (assign t)).steps m := by
    intro n c hex
    induction hex with
    | start =>
      refine ⟨fun _ => [], ⟨?_, rfl, ?_, fun _ _ => rfl⟩, rfl⟩
      · intro t
        exact ⟨_, _, hthr t, rfl, fun _ h => h⟩
      · intro t p hp
        simp at hp
    | step hex hs ih =>
      obtain ⟨ws, hi, hc⟩ := ih
      obtain ⟨ws', hi', hc'⟩ := hi.step hd hs
      exact ⟨ws', hi', by omega⟩
  refine ⟨∑ t, (threadProg body (assign t)).steps m, ?_⟩
  intro n c hex
  obtain ⟨ws, hi, hc⟩ := hinv n c hex
  have hnf := hi.noFault
  refine ⟨by omega, hnf, ?_, ?_⟩
  · by_cases hfin : Finished c
    · exact Or.inl hfin
    · right
      unfold Finished at hfin
      push_neg at hfin
      obtain ⟨t, hne⟩ := hfin
      have hnt : ¬ _ := fun h => hnf ⟨t, h⟩
      obtain ⟨pool, mem⟩ := c
      cases hb : pool t with
      | ret a => exact absurd hb (hne a)
      | guard P k =>
        simp only [hb, not_not] at hnt
        exact ⟨_, PStep.guard hb hnt⟩
      | rd p k =>
        simp only [hb, not_not] at hnt
        exact ⟨_, PStep.rd hb hnt⟩
      | wr p v k =>
        simp only [hb, not_not] at hnt
        exact ⟨_, PStep.wr hb hnt⟩
  · intro hfin
    have hws : ∀ t, ws t = (assign t).flatMap Ws := by
      intro t
      obtain ⟨a, hta⟩ := hfin t
      obtain ⟨r', w', h1, h2, _⟩ := hi.solo t
      rw [hta] at h1
      simp only [Body.trace, Except.ok.injEq, Prod.mk.injEq] at h1
      obtain ⟨_, rfl, _⟩ := h1
      simpa using h2.symm
    rw [hm']
    apply Mem.ext
    · rw [hi.size]; simp
    · funext p
      by_cases hp : ∃ i ∈ l, p ∈ (Ws i).map Prod.fst
      · obtain ⟨i, hil, hpi⟩ := hp
        obtain ⟨t, hit⟩ := ha.cover i hil
        have hin : p ∈ (ws t).map Prod.fst := by
          rw [hws t]
          obtain ⟨x, hx, rfl⟩ := List.mem_map.1 hpi
          exact List.mem_map_of_mem (List.mem_flatMap.2 ⟨i, hit, hx⟩)
        rw [hi.own t p hin, hws t,
          flat_val hr hil hpi (assign t) m (ha.nodup t) (ha.sub t) (fun _ => rfl) (fun h => absurd hit h),
          flat_val hr hil hpi l m hnd (fun _ h => h) (fun _ => rfl) (fun h => absurd hil h)]
      · have hno : ∀ L : List ι, (∀ i ∈ L, i ∈ l) → p ∉ (L.flatMap Ws).map Prod.fst := by
          intro L hL hc
          obtain ⟨x, hx, rfl⟩ := List.mem_map.1 hc
          obtain ⟨i, hiL, hxi⟩ := List.mem_flatMap.1 hx
          exact hp ⟨i, hL i hiL, List.mem_map_of_mem hxi⟩
        rw [hi.other p (fun t => by rw [hws t]; exact hno _ (ha.sub t)), Mem.setAll_notin _ _ _ (hno l (fun _ h => h))]

/-- Conversely the model forbids every race: if some iteration writes a location that another one reads or writes, the loop is
undefined behaviour in the model, so a routine containing it could not be proved to end normally. -/
theorem C14_race_is_ub {ι : Type} {l : List ι} {body : ι → Body Unit} {m : Mem} {i j : ι} (hi : i ∈ l) (hj : j ∈ l) (hij : i ≠ j)
    {ri wi rj wj} (h1 : (body i).trace m = .ok (ri, wi, ())) (h2 : (body j).trace m = .ok (rj, wj, ())) {x : Ptr × ℂ}
    (hx : x ∈ wi) (hc : x.1 ∈ rj ∨ x.1 ∈ wj.map Prod.fst) : par l body m = .error .ub := by
  unfold par
  rw [if_neg]
  rintro ⟨_, _, h⟩
  obtain ⟨a, b⟩ := h i hi j hj hij _ _ _ _ h1 h2 x hx
  rcases hc with hc | hc
  · exact a hc
  · exact b hc

/-- The hypotheses of C14 are met: two threads doubling the words of an array. -/
example : ∃ m', par (rng 0 4) (fun j => do
      let v ← load ((⟨0, 0⟩ : Ptr) + j)
      store ((⟨0, 0⟩ : Ptr) + j) (2 * v)) ⟨fun _ => 4, fun _ => 1⟩ = .ok ((), m') ∧
    Distribution (rng 0 4) (fun t : Fin 2 => if t = 0 then [2, 0] else [1, 3]) := by
  obtain ⟨_, m', h, _⟩ := par_ok (l := rng 0 4) (rng_nodup 0 4) (body := fun j => do
      let v ← load ((⟨0, 0⟩ : Ptr) + j)
      store ((⟨0, 0⟩ : Ptr) + j) (2 * v)) (m := ⟨fun _ => 4, fun _ => 1⟩)
    (by
      intro i hi
      rw [mem_rng] at hi
      simp only [load_bind, store_def, Body.Good, Mem.valid, Ptr.add_off]
      refine ⟨⟨by simp, by simp; omega⟩, ⟨by simp, by simp; omega⟩, trivial⟩)
    (by
      intro i _ j _ hij x hx
      simp only [load_bind, store_def, Body.wrs, Body.rds, List.mem_singleton] at hx ⊢
      subst hx
      simp [Ptr.ext_iff]; omega)
    (by
      intro i _
      simp [load_bind, store_def, Body.wrs])
  refine ⟨m', h, ?_, ?_, ?_, ?_⟩ <;> decide

end Fftwpp
