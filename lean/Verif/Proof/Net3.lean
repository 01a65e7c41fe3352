import Verif.Proof.Net2

/-!
# Supersteps of all the processes
-/

namespace Fftwpp.Net
variable {V : Type}

/-- Nothing is in transit and the process `i < P` is about to run `k i`. -/
structure Quiet (P : ℕ) (k : ℕ → Prog V Unit) (s : St V) : Prop where
  prog : ∀ i < P, (s i).prog = k i
  done : ∀ i, P ≤ i → (s i).prog = .ret ()
  req : ∀ i < P, ∀ id, (s i).loc.req id = none
  bal : Balanced P (fun i => (s i).loc)

theorem calls_append (l l' : List (Op V)) : (Prog.calls (l ++ l')) = (Prog.calls l).bind fun _ => Prog.calls l' := by
  induction l with
  | nil => rfl
  | cons o t ih =>
    simp only [List.cons_append, Prog.calls, ih, Prog.bind_assoc]

theorem call_eq (o : Op V) : Prog.call o = Prog.calls [o] := rfl

/-- A phase of local computations. -/
theorem local_phase {e : Eager} {P : ℕ} {s : St V} {x k : ℕ → Prog V Unit} (h : Quiet P (fun i => (x i).bind fun _ => k i) s)
    {R : ℕ → (Loc → V) → Prop}
    (hx : ∀ i < P, ∃ m, (x i).eval e i (fun j => (s j).loc) (s i).loc = some ((), { (s i).loc with mem := m }) ∧ R i m) :
    ∃ t, Steps e s t ∧ Quiet P k t ∧ (∀ i, (t i).loc.size = (s i).loc.size) ∧ ∀ i < P, R i (t i).loc.mem := by
  have hx' : ∀ i, ∃ m, i < P → (x i).eval e i (fun j => (s j).loc) (s i).loc = some ((), { (s i).loc with mem := m }) ∧ R i m := by
    intro i
    by_cases hi : i < P
    · obtain ⟨m, hm⟩ := hx i hi
      exact ⟨m, fun _ => hm⟩
    · exact ⟨(s i).loc.mem, fun h => absurd h hi⟩
  choose m hm using hx'
  let t : St V := fun i => if i < P then ⟨k i, { (s i).loc with mem := m i }⟩ else s i
  have ht : ∀ i < P, t i = ⟨k i, { (s i).loc with mem := m i }⟩ := fun i hi => by simp [t, hi]
  have ht' : ∀ i, P ≤ i → t i = s i := fun i hi => by simp [t, show ¬ i < P by omega]
  refine ⟨t, phase P ht' ?_, ⟨?_, ?_, ?_, ?_⟩, ?_, ?_⟩
  · intro i hi
    refine ⟨Unit, x i, fun _ => k i, (), h.prog i hi, ?_, ?_⟩
    · rw [ht i hi]
    · rw [ht i hi]; exact (hm i hi).1
  · intro i hi; rw [ht i hi]
  · intro i hi; rw [ht' i hi]; exact h.done i hi
  · intro i hi id; rw [ht i hi]; exact h.req i hi id
  · intro i hi j hj ctx
    simp only
    rw [ht i hi, ht j hj]; exact h.bal i hi j hj ctx
  · intro i
    by_cases hi : i < P
    · rw [ht i hi]
    · rw [ht' i (by omega)]
  · intro i hi; rw [ht i hi]; exact (hm i hi).2

theorem pw_forall {α : Type} {R : α → α → Prop} {l : List α} (h : l.Pairwise R) (hs : ∀ x y, R x y → R y x) {a b : α} (ha : a ∈ l) (hb : b ∈ l)
    (hne : a ≠ b) : R a b := by
  haveI : Std.Symm R := ⟨hs⟩
  exact h.forall ha hb hne

/-- A superstep: nonblocking operations and copies, then waits. -/
theorem superstep {e : Eager} {P : ℕ} {s : St V} {ops : ℕ → List (Op V)} {ws : ℕ → List (ℕ × ℕ)} {k : ℕ → Prog V Unit}
    (h : Quiet P (fun i => (Prog.calls (ops i)).bind fun _ => (Prog.calls ((ws i).map fun id => .wait id)).bind fun _ => k i) s)
    (hpost : ∀ i < P, ∀ o ∈ ops i, o.isPost) (hpw : ∀ i < P, (ops i).Pairwise Op.Compat)
    (hb : ∀ i < P, ∀ o ∈ ops i, ∀ a, o.reads a ∨ o.writes a → (s i).loc.inBounds a)
    (hws : ∀ i < P, ∀ o ∈ ops i, ∀ id, o.rid = some id → id ∈ ws i)
    (hsend : ∀ i < P, ∀ id ctx p src n hold, .isend id ctx p src n hold ∈ ops i → p < P ∧ ∃ id' dst, .irecv id' ctx i dst n ∈ ops p)
    (hrecv : ∀ i < P, ∀ id ctx p dst n, .irecv id ctx p dst n ∈ ops i → p < P ∧ ∃ id' src hold, .isend id' ctx i src n hold ∈ ops p) :
    ∃ t, Steps e s t ∧ Quiet P k t ∧ (∀ i, (t i).loc.size = (s i).loc.size) ∧
      (∀ i < P, ∀ id ctx p dst n, .irecv id ctx p dst n ∈ ops i → ∀ id' src n' hold, .isend id' ctx i src n' hold ∈ ops p →
        ∀ j < n, (t i).loc.mem (dst + j) = (s p).loc.mem (src + j)) ∧
      (∀ i < P, ∀ mv, .moves mv ∈ ops i → ∀ x ∈ mv, (t i).loc.mem x.1 = (s i).loc.mem x.2) ∧
      ∀ i < P, ∀ a, (∀ o ∈ ops i, ¬ o.writes a) → (t i).loc.mem a = (s i).loc.mem a := by
  -- posting
  have hp1 : ∀ i, ∃ σ, i < P → (Prog.calls (ops i)).eval e i (fun j => (s j).loc) (s i).loc = some ((), σ) ∧ Posted (ops i) (s i).loc σ := by
    intro i
    by_cases hi : i < P
    · obtain ⟨σ, h1, h2⟩ := posts_eval (e := e) (i := i) (env := fun j => (s j).loc) (hpost i hi) (hpw i hi) (hb i hi)
        (fun o _ id _ => h.req i hi id) (fun o _ id q hq => by rw [h.req i hi id] at hq; cases hq)
      exact ⟨σ, fun _ => ⟨h1, h2⟩⟩
    · exact ⟨(s i).loc, fun h => absurd h hi⟩
  choose σ hσ using hp1
  let t1 : St V := fun i => if i < P then ⟨(Prog.calls ((ws i).map fun id => .wait id)).bind fun _ => k i, σ i⟩ else s i
  have ht1 : ∀ i < P, t1 i = ⟨(Prog.calls ((ws i).map fun id => .wait id)).bind fun _ => k i, σ i⟩ := fun i hi => by simp [t1, hi]
  have ht1' : ∀ i, P ≤ i → t1 i = s i := fun i hi => by simp [t1, show ¬ i < P by omega]
  have st1 : Steps e s t1 := phase P ht1' fun i hi => by
    refine ⟨Unit, Prog.calls (ops i), _, (), h.prog i hi, ?_, ?_⟩
    · rw [ht1 i hi]
    · rw [ht1 i hi]; exact (hσ i hi).1
  -- pending requests
  have hpend : ∀ i < P, ∀ id q, (σ i).req id = some q →
      (∃ ctx p src n hold bf r, .isend id ctx p src n hold ∈ ops i ∧ q = .send p ctx ((s i).loc.sent (p, ctx)).length bf r) ∨
      (∃ ctx p dst n, .irecv id ctx p dst n ∈ ops i ∧ q = .recv p ctx ((s i).loc.rcvd (p, ctx)) ⟨dst, n⟩) := by
    intro i hi id q hq
    by_cases hex : ∃ o ∈ ops i, o.rid = some id
    · obtain ⟨o, ho, hr⟩ := hex
      cases o with
      | isend id' ctx p src n hold =>
        simp only [Op.rid, Option.some.injEq] at hr
        subst hr
        obtain ⟨bf, r, hreq⟩ := (hσ i hi).2.req_send _ _ _ _ _ _ ho
        rw [hreq] at hq
        cases hq
        exact Or.inl ⟨ctx, p, src, n, hold, bf, r, ho, rfl⟩
      | irecv id' ctx p dst n =>
        simp only [Op.rid, Option.some.injEq] at hr
        subst hr
        rw [(hσ i hi).2.req_recv _ _ _ _ _ ho] at hq
        cases hq
        exact Or.inr ⟨ctx, p, dst, n, ho, rfl⟩
      | _ => simp [Op.rid] at hr
    · rw [(hσ i hi).2.req_other id (fun o ho hr => hex ⟨o, ho, hr⟩), h.req i hi id] at hq
      cases hq
  have hww : ∀ i < P, ∀ o ∈ ops i, ∀ o' ∈ ops i, o ≠ o' → ∀ a, o.writes a → ¬ o'.writes a := by
    intro i hi
    have : (ops i).Pairwise fun o o' => ∀ a, o.writes a → ¬ o'.writes a := (hpw i hi).imp fun hc => hc.ww
    intro o ho o' ho' hne
    exact pw_forall this (by intro x y hxy a ha hb; exact hxy a hb ha) ho ho' hne
  have hdat : ∀ i < P, ∀ id ctx p dst n, .irecv id ctx p dst n ∈ ops i → ∀ id' src n' hold, .isend id' ctx i src n' hold ∈ ops p → p < P →
      ((t1 p).loc.sent (i, ctx))[(s i).loc.rcvd (p, ctx)]? = some (readMem (s p).loc.mem src n') := by
    intro i hi id ctx p dst n hr id' src n' hold hs hp
    rw [ht1 p hp]
    simp only
    rw [(hσ p hp).2.sent_some _ _ _ _ _ _ hs, ← h.bal p hp i hi ctx]
    simp
  -- lengths agree
  have hlen : ∀ i < P, ∀ id ctx p dst n, .irecv id ctx p dst n ∈ ops i → ∀ id' src n' hold, .isend id' ctx i src n' hold ∈ ops p → p < P → n' = n := by
    intro i hi id ctx p dst n hr id' src n' hold hs hp
    obtain ⟨_, id2, src2, hold2, hs2⟩ := hrecv i hi _ _ _ _ _ hr
    by_cases heq : (Op.isend id' ctx i src n' hold : Op V) = .isend id2 ctx i src2 n hold2
    · cases heq; rfl
    · have : (ops p).Pairwise fun o o' => ∀ c, o.schan = some c → o'.schan ≠ some c := (hpw p hp).imp fun hc => hc.sc
      exact absurd rfl (pw_forall this (by intro x y hxy c ha hb; exact hxy c hb ha) hs hs2 heq (i, ctx) rfl)
  have hw : ∀ i, ∃ τ, i < P → (Prog.calls ((ws i).map fun id => .wait id)).eval e i (fun j => (t1 j).loc) (t1 i).loc = some ((), τ) ∧
      τ.size = (s i).loc.size ∧ τ.sent = (σ i).sent ∧ τ.rcvd = (σ i).rcvd ∧ (∀ id, τ.req id = none) ∧
      (∀ id ctx p dst n, .irecv id ctx p dst n ∈ ops i → ∀ id' src n' hold, .isend id' ctx i src n' hold ∈ ops p →
        ∀ j < n, τ.mem (dst + j) = (s p).loc.mem (src + j)) ∧
      (∀ a, (∀ id ctx p dst n, .irecv id ctx p dst n ∈ ops i → ¬ (Region.mk dst n).has a) → τ.mem a = (σ i).mem a) := by
    intro i
    by_cases hi : i < P
    swap
    · exact ⟨(s i).loc, fun h => absurd h hi⟩
    obtain ⟨τ, h1, h2, h3, h4, h5, h6, h7, h8⟩ := waits_eval (e := e) (i := i) (env := fun j => (t1 j).loc) (l := ws i) (σ := σ i)
      (by
        intro id _ q hq
        rcases hpend i hi id q hq with ⟨ctx, p, src, n, hold, bf, r, ho, rfl⟩ | ⟨ctx, p, dst, n, ho, rfl⟩
        · obtain ⟨hp, id', dst, hr⟩ := hsend i hi _ _ _ _ _ _ ho
          show ((s i).loc.sent (p, ctx)).length < (t1 p).loc.rcvd (i, ctx)
          rw [ht1 p hp]
          simp only
          rw [(hσ p hp).2.rcvd_some _ _ _ _ _ hr]
          have := h.bal i hi p hp ctx
          simp only at this
          omega
        · obtain ⟨hp, id', src, hold, hs⟩ := hrecv i hi _ _ _ _ _ ho
          exact ⟨_, hdat i hi _ _ _ _ _ ho _ _ _ _ hs hp, by rw [readMem_length]⟩)
      (by
        intro id id' q q' hne hq hq' hr hr' a ha ha'
        rcases hpend i hi id q hq with ⟨ctx, p, src, n, hold, bf, r, ho, rfl⟩ | ⟨ctx, p, dst, n, ho, rfl⟩
        · exact hr
        rcases hpend i hi id' q' hq' with ⟨ctx', p', src', n', hold', bf', r', ho', rfl⟩ | ⟨ctx', p', dst', n', ho', rfl⟩
        · exact hr'
        exact hww i hi _ ho _ ho' (by intro heq; cases heq; exact hne rfl) a (region_has.1 ha) (region_has.1 ha'))
    refine ⟨τ, fun _ => ⟨?_, h2.trans (hσ i hi).2.size, h3, h4, ?_, ?_, ?_⟩⟩
    · rw [ht1 i hi]; exact h1
    · intro id
      by_cases hid : id ∈ ws i
      · exact h5 id hid
      · rw [h6 id hid]
        by_contra hne
        obtain ⟨q, hq⟩ := Option.ne_none_iff_exists'.1 hne
        rcases hpend i hi id q hq with ⟨ctx, p, src, n, hold, bf, r, ho, rfl⟩ | ⟨ctx, p, dst, n, ho, rfl⟩
        · exact hid (hws i hi _ ho id rfl)
        · exact hid (hws i hi _ ho id rfl)
    · intro id ctx p dst n ho id' src n' hold hs j hj
      obtain ⟨hp, _⟩ := hrecv i hi _ _ _ _ _ ho
      have hnn := hlen i hi _ _ _ _ _ ho _ _ _ _ hs hp
      subst hnn
      have := h7 id (hws i hi _ ho id rfl) p ctx _ ⟨dst, n'⟩ _ ((hσ i hi).2.req_recv _ _ _ _ _ ho) (hdat i hi _ _ _ _ _ ho _ _ _ _ hs hp) j
        (by rw [readMem_length]; exact hj)
      simp only at this
      rw [this]
      simp [readMem]
    · intro a ha
      refine h8 a fun id _ q hq hr hh => ?_
      rcases hpend i hi id q hq with ⟨ctx, p, src, n, hold, bf, r, ho, rfl⟩ | ⟨ctx, p, dst, n, ho, rfl⟩
      · exact hr
      · exact ha _ _ _ _ _ ho hh
  choose τ hτ using hw
  let t : St V := fun i => if i < P then ⟨k i, τ i⟩ else s i
  have ht : ∀ i < P, t i = ⟨k i, τ i⟩ := fun i hi => by simp [t, hi]
  have ht' : ∀ i, P ≤ i → t i = s i := fun i hi => by simp [t, show ¬ i < P by omega]
  have st2 : Steps e t1 t := phase P (fun i hi => by rw [ht' i hi, ht1' i hi]) fun i hi => by
    refine ⟨Unit, Prog.calls ((ws i).map fun id => .wait id), fun _ => k i, (), ?_, ?_, ?_⟩
    · rw [ht1 i hi]
    · rw [ht i hi]
    · rw [ht i hi]; exact (hτ i hi).1
  refine ⟨t, st1.trans st2, ⟨?_, ?_, ?_, ?_⟩, ?_, ?_, ?_, ?_⟩
  · intro i hi; rw [ht i hi]
  · intro i hi; rw [ht' i hi]; exact h.done i hi
  · intro i hi id; rw [ht i hi]; exact (hτ i hi).2.2.2.2.1 id
  · intro i hi j hj ctx
    simp only
    rw [ht i hi, ht j hj]
    simp only
    rw [(hτ i hi).2.2.1, (hτ j hj).2.2.2.1]
    have hb0 := h.bal i hi j hj ctx
    simp only at hb0
    by_cases hex : ∃ id src n hold, .isend id ctx j src n hold ∈ ops i
    · obtain ⟨id, src, n, hold, hs⟩ := hex
      obtain ⟨_, id', dst, hr⟩ := hsend i hi _ _ _ _ _ _ hs
      rw [(hσ i hi).2.sent_some _ _ _ _ _ _ hs, (hσ j hj).2.rcvd_some _ _ _ _ _ hr]
      simp [hb0]
    · rw [(hσ i hi).2.sent_none, (hσ j hj).2.rcvd_none]
      · exact hb0
      · intro o ho hc
        cases o with
        | irecv id ctx' p dst n =>
          simp only [Op.rchan, Option.some.injEq, Prod.mk.injEq] at hc
          obtain ⟨rfl, rfl⟩ := hc
          obtain ⟨_, id', src, hold, hs⟩ := hrecv j hj _ _ _ _ _ ho
          exact hex ⟨_, _, _, _, hs⟩
        | _ => simp [Op.rchan] at hc
      · intro o ho hc
        cases o with
        | isend id ctx' p src n hold =>
          simp only [Op.schan, Option.some.injEq, Prod.mk.injEq] at hc
          obtain ⟨rfl, rfl⟩ := hc
          exact hex ⟨_, _, _, _, ho⟩
        | _ => simp [Op.schan] at hc
  · intro i
    by_cases hi : i < P
    · rw [ht i hi]; exact (hτ i hi).2.1
    · rw [ht' i (by omega)]
  · intro i hi id ctx p dst n hr id' src n' hold hs j hj
    rw [ht i hi]
    exact (hτ i hi).2.2.2.2.2.1 _ _ _ _ _ hr _ _ _ _ hs j hj
  · intro i hi mv hmv x hx
    rw [ht i hi]
    simp only
    rw [(hτ i hi).2.2.2.2.2.2, (hσ i hi).2.mem_moves mv hmv x hx]
    intro id ctx p dst n hr hh
    exact hww i hi _ hr _ hmv (by simp) x.1 (region_has.1 hh) ⟨x, hx, rfl⟩
  · intro i hi a ha
    rw [ht i hi]
    simp only
    rw [(hτ i hi).2.2.2.2.2.2, (hσ i hi).2.mem_other]
    · intro mv hmv x hx heq
      exact ha _ hmv ⟨x, hx, heq⟩
    · intro id ctx p dst n hr hh
      exact ha _ hr (region_has.1 hh)

end Fftwpp.Net
