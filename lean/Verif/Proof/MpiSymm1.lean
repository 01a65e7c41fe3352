import Verif.Model.MpiSymm
import Verif.Proof.MpiConv9

/-!
# Phases in which only some processes take part
-/

namespace Fftwpp.Net
open Finset

variable {e : Eager} {P : ℕ} {g : ℕ → Mem} {Q : (ℕ → Mem) → Prop}

/-- A computation of the processes in `S`. -/
theorem NOk.some {S : ℕ → Prop} [DecidablePred S] {c : ℕ → Cmd Unit} {R : ℕ → Mem → Prop}
    (h : ∀ r < P, S r → (c r).Ok (g r) fun _ m' => m'.size = (g r).size ∧ R r m')
    (hQ : ∀ g', (∀ r < P, S r → (g' r).size = (g r).size ∧ R r (g' r)) → (∀ r < P, ¬ S r → g' r = g r) → Q g') :
    NOk e P (fun r => if S r then runCmd (c r) else .ret ()) g Q := by
  intro s k hq hg
  obtain ⟨t, t1, t2, t3, t4⟩ := local_phase (e := e) hq (R := fun r m => (S r → (toMem (s r).loc.size m).size = (g r).size ∧ R r (toMem (s r).loc.size m)) ∧
      (¬ S r → toMem (s r).loc.size m = g r)) (by
    intro r hr
    by_cases hS : S r
    · obtain ⟨_, m', h1, h2, h3⟩ := h r hr hS
      refine ⟨fun a => m'.val a.ptr, ?_, ?_⟩
      · beta_reduce
        rw [if_pos hS]
        refine eval_call ?_
        refine (if_pos (hq.req r hr)).trans ?_
        have : (c r) (toMem (s r).loc.size (s r).loc.mem) = .ok ((), m') := by
          rw [show toMem (s r).loc.size (s r).loc.mem = g r from hg r hr]; exact h1
        simp only [this, Option.map_some]
      · have : toMem (s r).loc.size (fun a => m'.val a.ptr) = m' := by
          unfold toMem
          ext p
          · rw [h2, ← hg r hr]; rfl
          · simp only [Ptr.loc_ptr]
        beta_reduce
        rw [this]
        exact ⟨fun _ => ⟨h2, h3⟩, fun h => absurd hS h⟩
    · refine ⟨(s r).loc.mem, ?_, fun h => absurd h hS, fun _ => hg r hr⟩
      beta_reduce
      rw [if_neg hS]
      rfl)
  have e1 : ∀ r, mmem (t r).loc = toMem (s r).loc.size (t r).loc.mem := by
    intro r
    show toMem (t r).loc.size _ = _
    rw [t3]
  refine ⟨t, t1, t2, t3, fun r => mmem (t r).loc, fun _ _ => rfl, hQ _ (fun r hr hS => ?_) (fun r hr hS => ?_)⟩
  · beta_reduce
    rw [e1]
    exact (t4 r hr).1 hS
  · beta_reduce
    rw [e1]
    exact (t4 r hr).2 hS

/-- A message of `n` words from process `i` to process `j`. -/
theorem NOk.msg {i j n : ℕ} {src dst : Ptr} (hi : i < P) (hj : j < P) (hij : i ≠ j) (hs : 0 ≤ src.off) (hd : 0 ≤ dst.off)
    (hbs : (g i).block src n) (hbd : (g j).block dst n)
    (hQ : ∀ g', (∀ r < P, r ≠ j → g' r = g r) → (g j).Upd (g' j) (fun p => ∃ k < n, p = dst + k) → (∀ k < n, (g' j).val (dst + k) = (g i).val (src + k)) → Q g') :
    NOk e P (fun r => if r = i then send src.loc n j else if r = j then recv dst.loc n i else .ret ()) g Q := by
  intro s k hq hg
  have hin : ∀ (r : ℕ) (p : Ptr), r < P → (g r).valid p → 0 ≤ p.off → (s r).loc.inBounds p.loc := by
    intro r p hr hv h0
    rw [← hg r hr] at hv
    rw [Ptr.loc_of h0]
    unfold Local.inBounds
    have := hv.2
    show p.off.toNat < (s r).loc.size (2 * p.buf)
    have h2 : (mmem (s r).loc).size p.buf = (s r).loc.size (2 * p.buf) := rfl
    omega
  have hji : j ≠ i := fun h => hij h.symm
  obtain ⟨t, t1, t2, t3, t4, _, t5⟩ := superstep (e := e) (P := P) (s := s)
    (ops := fun r => if r = i then [.isend (2, 0) 0 j src.loc n true] else if r = j then [.irecv (2, 0) 0 i dst.loc n] else [])
    (ws := fun r => if r = i ∨ r = j then [(2, 0)] else []) (k := k)
    ⟨fun r hr => by
      rw [hq.prog r hr]
      by_cases h1 : r = i
      · subst h1; simp; rfl
      by_cases h2 : r = j
      · subst h2; simp [h1]; rfl
      · simp [h1, h2]; rfl, hq.done, hq.req, hq.bal⟩
    (by
      intro r hr o ho
      split_ifs at ho
      · simp only [List.mem_singleton] at ho; subst ho; trivial
      · simp only [List.mem_singleton] at ho; subst ho; trivial
      · simp at ho)
    (by intro r hr; split_ifs <;> simp)
    (by
      intro r hr o ho a ha
      split_ifs at ho with h1 h2
      · subst h1
        simp only [List.mem_singleton] at ho; subst ho
        simp only [Op.reads, Op.writes, or_false] at ha
        obtain ⟨q, hq', rfl⟩ := ha
        rw [← Ptr.loc_add hs]
        exact hin r _ hr (hbs q hq') (by simp; omega)
      · subst h2
        simp only [List.mem_singleton] at ho; subst ho
        simp only [Op.reads, Op.writes, false_or] at ha
        obtain ⟨q, hq', rfl⟩ := ha
        rw [← Ptr.loc_add hd]
        exact hin r _ hr (hbd q hq') (by simp; omega)
      · simp at ho)
    (by
      intro r hr o ho id hid
      split_ifs at ho with h1 h2
      · simp only [List.mem_singleton] at ho; subst ho
        simp only [Op.rid, Option.some.injEq] at hid
        subst hid; subst h1; simp
      · simp only [List.mem_singleton] at ho; subst ho
        simp only [Op.rid, Option.some.injEq] at hid
        subst hid; subst h2; simp
      · simp at ho)
    (by
      intro r hr id ctx p sr m hold ho
      split_ifs at ho with h1 h2
      · simp only [List.mem_singleton, Op.isend.injEq] at ho
        obtain ⟨rfl, rfl, rfl, rfl, rfl, rfl⟩ := ho
        subst h1
        exact ⟨hj, (2, 0), dst.loc, by simp [hji]⟩
      · simp at ho
      · simp at ho)
    (by
      intro r hr id ctx p ds m ho
      split_ifs at ho with h1 h2
      · simp at ho
      · simp only [List.mem_singleton, Op.irecv.injEq] at ho
        obtain ⟨rfl, rfl, rfl, rfl, rfl⟩ := ho
        subst h2
        exact ⟨hi, (2, 0), src.loc, true, by simp⟩
      · simp at ho)
  have em : ∀ r < P, (∀ a, (∀ o ∈ (if r = i then [Op.isend (2, 0) 0 j src.loc n true] else if r = j then [Op.irecv (2, 0) 0 i dst.loc n] else [] : List (Op ℂ)), ¬ o.writes a) →
      (t r).loc.mem a = (s r).loc.mem a) := fun r hr => t5 r hr
  refine ⟨t, t1, t2, t3, fun r => mmem (t r).loc, fun _ _ => rfl, hQ _ ?_ ?_ ?_⟩
  · intro r hr hrj
    beta_reduce
    rw [← hg r hr]
    unfold mmem toMem
    rw [t3]
    have : (t r).loc.mem = (s r).loc.mem := by
      funext a
      refine em r hr a ?_
      intro o ho
      rw [if_neg hrj] at ho
      split_ifs at ho
      · simp only [List.mem_singleton] at ho; subst ho; simp [Op.writes]
      · simp at ho
    rw [this]
  · refine ⟨?_, fun p hp => ?_⟩
    · rw [← hg j hj]
      unfold mmem toMem
      rw [t3]
    · rw [← hg j hj]
      show (t j).loc.mem p.loc = (s j).loc.mem p.loc
      refine em j hj _ ?_
      intro o ho
      rw [if_neg hji, if_pos rfl] at ho
      simp only [List.mem_singleton] at ho; subst ho
      rintro ⟨q, hq', he⟩
      rw [← Ptr.loc_add hd] at he
      have := congrArg Loc.ptr he
      rw [Ptr.loc_ptr, Ptr.loc_ptr] at this
      exact hp ⟨q, hq', this⟩
  · intro q hq'
    have := t4 j hj (2, 0) 0 i dst.loc n (by simp [hji]) (2, 0) src.loc n true (by simp) q hq'
    rw [← Ptr.loc_add hd, ← Ptr.loc_add hs] at this
    rw [← hg i hi]
    exact this

/-! ## Loops -/

theorem loop_append {V : Type} (l l' : List ℕ) (f : ℕ → Prog V Unit) : Prog.loop (l ++ l') f = (Prog.loop l f).bind fun _ => Prog.loop l' f := by
  induction l with
  | nil => rfl
  | cons a t ih =>
    simp only [List.cons_append, Prog.loop, ih]
    rw [Prog.bind_assoc]

theorem loop_map {V : Type} (l : List ℕ) (h : ℕ → ℕ) (f : ℕ → Prog V Unit) : Prog.loop (l.map h) f = Prog.loop l (fun i => f (h i)) := by
  induction l with
  | nil => rfl
  | cons a t ih => simp only [List.map_cons, Prog.loop, ih]

theorem loop_congr {V : Type} {l : List ℕ} {f f' : ℕ → Prog V Unit} (h : ∀ i ∈ l, f i = f' i) : Prog.loop l f = Prog.loop l f' := by
  induction l with
  | nil => rfl
  | cons a t ih =>
    simp only [Prog.loop]
    rw [h a (by simp), ih fun i hi => h i (by simp [hi])]

theorem loop_ret {V : Type} {l : List ℕ} {f : ℕ → Prog V Unit} (h : ∀ i ∈ l, f i = .ret ()) : Prog.loop l f = .ret () := by
  induction l with
  | nil => rfl
  | cons a t ih =>
    simp only [Prog.loop]
    rw [h a (by simp), ih fun i hi => h i (by simp [hi])]
    rfl

theorem rng_append {a b c : ℕ} (h1 : a ≤ b) (h2 : b ≤ c) : rng a c = rng a b ++ rng b c := by
  unfold rng
  obtain ⟨x, rfl⟩ : ∃ x, b = a + x := ⟨b - a, by omega⟩
  obtain ⟨y, rfl⟩ : ∃ y, c = a + x + y := ⟨c - (a + x), by omega⟩
  rw [show a + x + y - a = x + y by omega, show a + x - a = x by omega, show a + x + y - (a + x) = y by omega, ← List.range'_append_1]

theorem loop_trim {V : Type} {a b a' b' : ℕ} {f : ℕ → Prog V Unit} (h1 : a ≤ a') (h2 : a' ≤ b') (h3 : b' ≤ b) (hl : ∀ t, a ≤ t → t < a' → f t = .ret ())
    (hr : ∀ t, b' ≤ t → t < b → f t = .ret ()) : Prog.loop (rng a b) f = Prog.loop (rng a' b') f := by
  rw [rng_append h1 (h2.trans h3), rng_append h2 h3, loop_append, loop_append, loop_ret (l := rng a a'), loop_ret (l := rng b' b)]
  · show Prog.bind _ _ = _
    exact Geo.bind_ret _
  · intro i hi
    rw [mem_rng] at hi
    exact hr i hi.1 hi.2
  · intro i hi
    rw [mem_rng] at hi
    exact hl i hi.1 hi.2

theorem rng_empty {a b : ℕ} (h : b ≤ a) : rng a b = [] := by
  unfold rng
  rw [show b - a = 0 by omega]
  rfl

end Fftwpp.Net
