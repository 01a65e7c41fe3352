import Verif.Proof.Net
import Verif.Model.Gather

/-!
# The gather skeleton: one canonical run
-/

namespace Fftwpp.Net
variable {V α β γ : Type}

theorem Prog.bind_assoc {f : α → Prog V β} {g : β → Prog V γ} : ∀ x : Prog V α, (x.bind f).bind g = x.bind fun a => (f a).bind g := by
  intro x
  induction x with
  | ret a => rfl
  | fail => rfl
  | op o k ih => simp only [Prog.bind, ih]
  | load a k ih => simp only [Prog.bind, ih]

theorem Prog.bind_def (x : Prog V α) (f : α → Prog V β) : (x >>= f) = x.bind f := rfl
theorem Prog.pure_def (a : α) : (pure a : Prog V α) = .ret a := rfl
@[simp] theorem Prog.ret_bind (a : α) (f : α → Prog V β) : (Prog.ret a).bind f = f a := rfl

theorem Prog.bind_ret (x : Prog V α) : (x.bind Prog.ret) = x := by
  induction x with
  | ret a => rfl
  | fail => rfl
  | op o k ih => simp only [Prog.bind, ih]
  | load a k ih => simp only [Prog.bind, ih]

theorem Prog.bind_unit (x : Prog V Unit) : (x.bind fun _ => Prog.ret ()) = x := Prog.bind_ret x

theorem eval_call {e : Eager} {i : ℕ} {env : ℕ → Local V} {σ τ : Local V} {o : Op V} (h : o.exec e i env σ = some τ) :
    (Prog.call o).eval e i env σ = some ((), τ) := by
  simp [Prog.call, Prog.eval, h]

theorem eval_seq {e : Eager} {i : ℕ} {env : ℕ → Local V} {σ τ : Local V} {x : Prog V α} {f : α → Prog V β} {a : α}
    (h : x.eval e i env σ = some (a, τ)) : (x.bind f).eval e i env σ = (f a).eval e i env τ := by
  rw [Prog.eval_bind, h]; rfl

/-- No pending request: bounds are enough. -/
theorem writable_of {σ : Local V} {a : Loc} (hr : ∀ id, σ.req id = none) (h : σ.inBounds a) : σ.writable a :=
  ⟨h, fun id q hq => by simp [hr id] at hq⟩

theorem readable_of {σ : Local V} {a : Loc} (hr : ∀ id, σ.req id = none) (h : σ.inBounds a) : σ.readable a :=
  ⟨h, fun id q hq => by simp [hr id] at hq⟩

theorem exec_alloc {e : Eager} {i : ℕ} {env : ℕ → Local V} {σ : Local V} {b n : ℕ} (h : σ.size b = 0) :
    (Op.alloc b n).exec e i env σ = some { σ with size := Function.update σ.size b n } := by
  simp [Op.exec, h]

theorem exec_free {e : Eager} {i : ℕ} {env : ℕ → Local V} {σ : Local V} {b : ℕ} (h : ∀ id, σ.req id = none) :
    (Op.free b).exec e i env σ = some { σ with size := Function.update σ.size b 0 } := by
  simp [Op.exec, h]

theorem exec_store {e : Eager} {i : ℕ} {env : ℕ → Local V} {σ : Local V} {a : Loc} {v : V} (h : σ.writable a) :
    (Op.store a v).exec e i env σ = some { σ with mem := fun b => if b = a then v else σ.mem b } := by
  simp [Op.exec, h]

theorem exec_isend {e : Eager} {i : ℕ} {env : ℕ → Local V} {σ : Local V} {id : ℕ × ℕ} {ctx dst n : ℕ} {src : Loc} {hold : Bool}
    (h0 : σ.req id = none) (h : ∀ j < n, σ.readable (src + j)) :
    (Op.isend id ctx dst src n hold).exec e i env σ = some { σ with
        req := Function.update σ.req id
          (some (.send dst ctx (σ.sent (dst, ctx)).length (e i σ.nsend) ⟨src, if hold then n else 0⟩))
        sent := Function.update σ.sent (dst, ctx) (σ.sent (dst, ctx) ++ [readMem σ.mem src n])
        nsend := σ.nsend + 1 } := by
  simp only [Op.exec, if_pos (And.intro h0 h)]

theorem exec_irecv {e : Eager} {i : ℕ} {env : ℕ → Local V} {σ : Local V} {id : ℕ × ℕ} {ctx src n : ℕ} {dst : Loc}
    (h0 : σ.req id = none) (h : ∀ j < n, σ.writable (dst + j)) :
    (Op.irecv id ctx src dst n).exec e i env σ = some { σ with
        req := Function.update σ.req id (some (.recv src ctx (σ.rcvd (src, ctx)) ⟨dst, n⟩))
        rcvd := Function.update σ.rcvd (src, ctx) (σ.rcvd (src, ctx) + 1) } := by
  simp only [Op.exec, if_pos (And.intro h0 h)]

theorem exec_wait_send {e : Eager} {i : ℕ} {env : ℕ → Local V} {σ : Local V} {id : ℕ × ℕ} {peer ctx k : ℕ} {bf : Bool} {reg : Region}
    (h0 : σ.req id = some (.send peer ctx k bf reg)) (h : k < (env peer).rcvd (i, ctx)) :
    (Op.wait id).exec e i env σ = some { σ with req := Function.update σ.req id none } := by
  simp [Op.exec, h0, h]

theorem exec_wait_recv {e : Eager} {i : ℕ} {env : ℕ → Local V} {σ : Local V} {id : ℕ × ℕ} {peer ctx k : ℕ} {reg : Region} {data : List V}
    (h0 : σ.req id = some (.recv peer ctx k reg)) (h : ((env peer).sent (i, ctx))[k]? = some data) (hl : data.length ≤ reg.len) :
    (Op.wait id).exec e i env σ = some { σ with req := Function.update σ.req id none, mem := fillMem σ.mem reg.base data } := by
  simp [Op.exec, h0, h, hl]

theorem exec_wait_none {e : Eager} {i : ℕ} {env : ℕ → Local V} {σ : Local V} {id : ℕ × ℕ} (h0 : σ.req id = none) :
    (Op.wait id).exec e i env σ = some σ := by
  simp [Op.exec, h0]

theorem readMem_length (m : Loc → V) (base : Loc) (n : ℕ) : (readMem m base n).length = n := by simp [readMem]

theorem fillMem_readMem {m m' : Loc → V} {base src : Loc} {n : ℕ} {a : Loc} :
    fillMem m base (readMem m' src n) a =
      if a.buf = base.buf ∧ base.off ≤ a.off ∧ a.off < base.off + n then m' (src + (a.off - base.off)) else m a := by
  unfold fillMem readMem
  by_cases h1 : a.buf = base.buf ∧ base.off ≤ a.off
  · rw [if_pos h1]
    by_cases h2 : a.off < base.off + n
    · rw [if_pos ⟨h1.1, h1.2, h2⟩, List.getElem?_map, List.getElem?_range (by omega)]
      rfl
    · rw [if_neg (fun h => h2 h.2.2), List.getElem?_eq_none (by simp; omega)]
      rfl
  · rw [if_neg h1, if_neg (fun h => h1 ⟨h.1, h.2.1⟩)]

/-- Simultaneous copies: each destination gets its source. -/
theorem moveMem_mem {m : Loc → V} {l : List (Loc × Loc)} (hd : (l.map (·.1)).Nodup) {x : Loc × Loc} (hx : x ∈ l) :
    moveMem m l x.1 = m x.2 := by
  unfold moveMem
  have : l.find? (fun y => y.1 = x.1) = some x := by
    induction l with
    | nil => simp at hx
    | cons y t ih =>
      rw [List.map_cons, List.nodup_cons] at hd
      by_cases hy : y.1 = x.1
      · rcases List.mem_cons.1 hx with rfl | hx'
        · simp
        · exact absurd (List.mem_map.2 ⟨x, hx', hy.symm⟩) hd.1
      · rcases List.mem_cons.1 hx with rfl | hx'
        · exact absurd rfl hy
        · rw [List.find?_cons_of_neg (by simpa using hy)]
          exact ih hd.2 hx'
  rw [this]

theorem moveMem_not {m : Loc → V} {l : List (Loc × Loc)} {a : Loc} (h : ∀ x ∈ l, x.1 ≠ a) : moveMem m l a = m a := by
  unfold moveMem
  have : l.find? (fun y => y.1 = a) = none := by
    rw [List.find?_eq_none]
    intro x hx
    simpa using h x hx
  rw [this]

/-- What an unpacking routine does: it copies word `x.2` of `src` to word `x.1` of `whole` for all pairs `x`, and nothing else. -/
def PlaceSpec (pl : Loc → Prog V Unit) (whole : Loc) (pairs : List (ℕ × ℕ)) (n : ℕ) : Prop :=
  ∀ (e : Eager) (i : ℕ) (env : ℕ → Local V) (src : Loc) (σ : Local V), src.buf ≠ whole.buf → (∀ id, σ.req id = none) →
    (∀ x ∈ pairs, σ.inBounds (whole + x.1)) → (∀ j < n, σ.inBounds (src + j)) →
    ∃ mem', (pl src).eval e i env σ = some ((), { σ with mem := mem' }) ∧
      (∀ x ∈ pairs, mem' (whole + x.1) = σ.mem (src + x.2)) ∧
      ∀ a, (∀ x ∈ pairs, a ≠ whole + x.1) → mem' a = σ.mem a

/-- The header words. -/
def loadNats (o : ℕ) : ℕ → Prog (ℕ ⊕ α) (List ℕ)
  | 0 => .ret []
  | n + 1 => (loadNat (dims + o)).bind fun x => (loadNats (o + 1) n).bind fun t => .ret (x :: t)

def storeNats (o : ℕ) : List ℕ → Prog (ℕ ⊕ α) Unit
  | [] => .ret ()
  | x :: t => (Prog.call (.store (dims + o) (.inl x))).bind fun _ => storeNats (o + 1) t

/-- The receiving side for one process. -/
def bodyG (nd : ℕ) (cnt : List ℕ → ℕ) (pl : List ℕ → Loc → Prog (ℕ ⊕ α) Unit) (p : ℕ) : Prog (ℕ ⊕ α) Unit :=
  (Prog.call (.alloc 2 nd)).bind fun _ =>
  (Prog.call (.irecv (2, 0) 0 p dims nd)).bind fun _ =>
  (Prog.call (.wait (2, 0))).bind fun _ =>
  (loadNats 0 nd).bind fun hs =>
  if cnt hs > 0 then
    (Prog.call (.alloc 3 (cnt hs))).bind fun _ =>
    (Prog.call (.irecv (2, 0) 0 p bufC (cnt hs))).bind fun _ =>
    (Prog.call (.wait (2, 0))).bind fun _ =>
    (pl hs bufC).bind fun _ =>
    (Prog.call (.free 3)).bind fun _ => Prog.call (.free 2)
  else Prog.call (.free 2)

/-- The sending side. -/
def senderG (nd : ℕ) (cnt : List ℕ → ℕ) (hs : List ℕ) (part : Loc) : Prog (ℕ ⊕ α) Unit :=
  (Prog.call (.alloc 2 nd)).bind fun _ =>
  (storeNats 0 hs).bind fun _ =>
  (Prog.call (.isend (2, 0) 0 0 dims nd true)).bind fun _ =>
  (Prog.call (.wait (2, 0))).bind fun _ =>
  if cnt hs > 0 then
    (Prog.call (.isend (2, 0) 0 0 part (cnt hs) true)).bind fun _ =>
    (Prog.call (.wait (2, 0))).bind fun _ => Prog.call (.free 2)
  else Prog.call (.free 2)

theorem eval_loadNats {e : Eager} {i : ℕ} {env : ℕ → Local (ℕ ⊕ α)} {σ : Local (ℕ ⊕ α)} : ∀ {hs : List ℕ} {o : ℕ},
    (∀ j, (h : j < hs.length) → σ.readable (dims + (o + j)) ∧ σ.mem (dims + (o + j)) = .inl hs[j]) →
    (loadNats o hs.length).eval e i env σ = some (hs, σ) := by
  intro hs
  induction hs with
  | nil => intro o _; rfl
  | cons x t ih =>
    intro o h
    have h0 := h 0 (by simp)
    simp only [Nat.add_zero, List.getElem_cons_zero] at h0
    simp only [loadNats, List.length_cons]
    rw [eval_seq (a := x) (τ := σ)]
    · rw [eval_seq (a := t) (τ := σ)]
      · rfl
      · refine ih fun j hj => ?_
        have := h (j + 1) (by simpa using hj)
        simpa [Nat.add_assoc, Nat.add_comm 1 j] using this
    · simp only [loadNat, Prog.eval, h0.1, if_true, h0.2]

theorem eval_storeNats {e : Eager} {i : ℕ} {env : ℕ → Local (ℕ ⊕ α)} : ∀ {hs : List ℕ} {o : ℕ} {σ : Local (ℕ ⊕ α)},
    (∀ id, σ.req id = none) → (∀ j < hs.length, σ.inBounds (dims + (o + j))) →
    ∃ mem', (storeNats o hs).eval e i env σ = some ((), { σ with mem := mem' }) ∧
      (∀ j, (h : j < hs.length) → mem' (dims + (o + j)) = .inl hs[j]) ∧
      ∀ a : Loc, a.buf ≠ 2 ∨ a.off < o → mem' a = σ.mem a := by
  intro hs
  induction hs with
  | nil => intro o σ _ _; exact ⟨σ.mem, rfl, by simp, fun _ _ => rfl⟩
  | cons x t ih =>
    intro o σ hr hb
    have hw : σ.writable (dims + o) := writable_of hr (by simpa using hb 0 (by simp))
    obtain ⟨mem', h1, h2, h3⟩ := ih (o := o + 1) (σ := { σ with mem := fun b => if b = dims + o then .inl x else σ.mem b }) hr (by
      intro j hj
      have := hb (j + 1) (by simpa using hj)
      simpa [Local.inBounds, Nat.add_assoc, Nat.add_comm 1 j] using this)
    refine ⟨mem', ?_, ?_, ?_⟩
    · simp only [storeNats]
      rw [eval_seq (eval_call (exec_store hw))]
      exact h1
    · intro j hj
      cases j with
      | zero =>
        rw [h3 _ (Or.inr (by simp [dims]))]
        simp
      | succ j =>
        have := h2 j (by simpa using hj)
        simpa [Nat.add_assoc, Nat.add_comm 1 j] using this
    · intro a ha
      rw [h3 a (by omega)]
      simp only
      rw [if_neg]
      rintro rfl
      simp [dims] at ha

end Fftwpp.Net

namespace Fftwpp.Net
variable {V α β γ : Type}

/-- `s` with process `p` and process 0 replaced. -/
def upd2 (s : St V) (p : ℕ) (A B : Proc V) : St V := fun j => if j = 0 then B else if j = p then A else s j

theorem upd2_zero (s : St V) (p : ℕ) (A B : Proc V) : upd2 s p A B 0 = B := by simp [upd2]
theorem upd2_p (s : St V) {p : ℕ} (hp : p ≠ 0) (A B : Proc V) : upd2 s p A B p = A := by simp [upd2, hp]
theorem upd2_self (s : St V) {p : ℕ} : upd2 s p (s p) (s 0) = s := by
  funext j; unfold upd2; split_ifs with h1 h2 <;> simp_all

theorem stepP {e : Eager} {s : St V} {p : ℕ} (hp : p ≠ 0) {A B : Proc V} {x : Prog V α} {f : α → Prog V Unit} {a : α} {τ : Local V}
    (h : A.prog = x.bind f) (he : x.eval e p (fun j => (upd2 s p A B j).loc) A.loc = some (a, τ)) :
    Steps e (upd2 s p A B) (upd2 s p ⟨f a, τ⟩ B) := by
  have := phase1 (e := e) (s := upd2 s p A B) p (x := x) (f := f) (a := a) (τ := τ) (by rw [upd2_p s hp]; exact h)
    (by simpa only [upd2_p s hp] using he)
  have he : Function.update (upd2 s p A B) p ⟨f a, τ⟩ = upd2 s p ⟨f a, τ⟩ B := by
    funext j
    by_cases hj : j = p
    · subst hj; simp [upd2, hp]
    · rw [Function.update_of_ne hj]; simp [upd2, hj]
  rwa [he] at this

theorem step0 {e : Eager} {s : St V} {p : ℕ} {A B : Proc V} {x : Prog V α} {f : α → Prog V Unit} {a : α} {τ : Local V}
    (h : B.prog = x.bind f) (he : x.eval e 0 (fun j => (upd2 s p A B j).loc) B.loc = some (a, τ)) :
    Steps e (upd2 s p A B) (upd2 s p A ⟨f a, τ⟩) := by
  have := phase1 (e := e) (s := upd2 s p A B) 0 (x := x) (f := f) (a := a) (τ := τ) (by rw [upd2_zero s]; exact h)
    (by simpa only [upd2_zero s] using he)
  have he : Function.update (upd2 s p A B) 0 ⟨f a, τ⟩ = upd2 s p A ⟨f a, τ⟩ := by
    funext j
    by_cases hj : j = 0
    · subst hj; simp [upd2]
    · rw [Function.update_of_ne hj]; simp [upd2, hj]
  rwa [he] at this

/-- A process with no pending operation and with `dims` and `C` unallocated. -/
structure Idle (σ : Local V) : Prop where
  req : ∀ id, σ.req id = none
  s2 : σ.size 2 = 0
  s3 : σ.size 3 = 0

/-- The exchange between rank 0 and rank `p`. -/
theorem exchange {e : Eager} {s : St (ℕ ⊕ α)} {p nd : ℕ} {cnt : List ℕ → ℕ} {pl : List ℕ → Loc → Prog (ℕ ⊕ α) Unit} {hs : List ℕ}
    {part whole : Loc} {f : Unit → Prog (ℕ ⊕ α) Unit} {σ τ : Local (ℕ ⊕ α)} {pairs : List (ℕ × ℕ)} (hp : p ≠ 0) (hnd : hs.length = nd)
    (hs0 : s 0 = ⟨(bodyG nd cnt pl p).bind f, σ⟩) (hsp : s p = ⟨senderG nd cnt hs part, τ⟩)
    (hσ : Idle σ) (hτ : Idle τ) (hbal : (τ.sent (0, 0)).length = σ.rcvd (p, 0)) (hpart : part.buf ≠ 2)
    (hpb : ∀ j < cnt hs, τ.inBounds (part + j)) (hpl : PlaceSpec (pl hs) whole pairs (cnt hs)) (hw2 : whole.buf ≠ 2)
    (hw3 : whole.buf ≠ 3) (hwb : ∀ x ∈ pairs, σ.inBounds (whole + x.1)) (hpj : ∀ x ∈ pairs, x.2 < cnt hs) :
    ∃ σ' τ', Steps e s (upd2 s p ⟨.ret (), τ'⟩ ⟨f (), σ'⟩) ∧ Idle σ' ∧ Idle τ' ∧ σ'.size = σ.size ∧ σ'.sent = σ.sent ∧
      (∀ c, c ≠ (p, 0) → σ'.rcvd c = σ.rcvd c) ∧ τ'.rcvd = τ.rcvd ∧ (∀ c, c ≠ (0, 0) → τ'.sent c = τ.sent c) ∧
      (τ'.sent (0, 0)).length = σ'.rcvd (p, 0) ∧ τ'.size = τ.size ∧ (∀ a : Loc, a.buf ≠ 2 → τ'.mem a = τ.mem a) ∧
      (∀ x ∈ pairs, σ'.mem (whole + x.1) = τ.mem (part + x.2)) ∧
      ∀ a : Loc, a.buf ≠ 2 → a.buf ≠ 3 → (∀ x ∈ pairs, a ≠ whole + x.1) → σ'.mem a = σ.mem a := by
  have hs2 : s = upd2 s p ⟨senderG nd cnt hs part, τ⟩ ⟨(bodyG nd cnt pl p).bind f, σ⟩ := by
    rw [← hs0, ← hsp]; exact (upd2_self s).symm
  -- 1: p posts its header
  obtain ⟨m1, hm1, hm1h, hm1o⟩ := eval_storeNats (e := e) (i := p)
    (env := fun j => (upd2 s p ⟨senderG nd cnt hs part, τ⟩ ⟨(bodyG nd cnt pl p).bind f, σ⟩ j).loc) (hs := hs) (o := 0)
    (σ := { τ with size := Function.update τ.size 2 nd }) hτ.req (by
      intro j hj; simp [Local.inBounds, dims]; omega)
  let τ1 : Local (ℕ ⊕ α) := { τ with
    size := Function.update τ.size 2 nd
    mem := m1
    req := Function.update τ.req (2, 0) (some (.send 0 0 (τ.sent (0, 0)).length (e p τ.nsend) ⟨dims, nd⟩))
    sent := Function.update τ.sent (0, 0) (τ.sent (0, 0) ++ [readMem m1 dims nd])
    nsend := τ.nsend + 1 }
  have st1 := stepP (e := e) (s := s) hp (A := ⟨senderG nd cnt hs part, τ⟩) (B := ⟨(bodyG nd cnt pl p).bind f, σ⟩)
    (x := (Prog.call (.alloc 2 nd)).bind fun _ => (storeNats 0 hs).bind fun _ => Prog.call (.isend (2, 0) 0 0 dims nd true))
    (f := fun _ => (Prog.call (.wait (2, 0))).bind fun _ =>
      if cnt hs > 0 then
        (Prog.call (.isend (2, 0) 0 0 part (cnt hs) true)).bind fun _ =>
        (Prog.call (.wait (2, 0))).bind fun _ => Prog.call (.free 2)
      else Prog.call (.free 2)) (a := ()) (τ := τ1)
    (by simp only [senderG, Prog.bind_assoc])
    (by
      rw [eval_seq (eval_call (exec_alloc hτ.s2)), eval_seq hm1]
      refine eval_call ?_
      rw [exec_isend (by exact hτ.req _) (by
        intro j hj
        refine readable_of (by exact hτ.req) ?_
        simp [Local.inBounds, dims]; omega)]
      simp [τ1])
  -- 2: 0 posts the receive
  let σ2 : Local (ℕ ⊕ α) := { σ with
    size := Function.update σ.size 2 nd
    req := Function.update σ.req (2, 0) (some (.recv p 0 (σ.rcvd (p, 0)) ⟨dims, nd⟩))
    rcvd := Function.update σ.rcvd (p, 0) (σ.rcvd (p, 0) + 1) }
  have st2 := step0 (e := e) (s := s) (p := p) (A := ⟨(Prog.call (.wait (2, 0))).bind fun _ =>
      if cnt hs > 0 then
        (Prog.call (.isend (2, 0) 0 0 part (cnt hs) true)).bind fun _ =>
        (Prog.call (.wait (2, 0))).bind fun _ => Prog.call (.free 2)
      else Prog.call (.free 2), τ1⟩) (B := ⟨(bodyG nd cnt pl p).bind f, σ⟩)
    (x := (Prog.call (.alloc 2 nd)).bind fun _ => Prog.call (.irecv (2, 0) 0 p dims nd))
    (f := fun _ => (Prog.call (.wait (2, 0))).bind fun _ =>
      (loadNats 0 nd).bind fun hs =>
      (if cnt hs > 0 then
        (Prog.call (.alloc 3 (cnt hs))).bind fun _ =>
        (Prog.call (.irecv (2, 0) 0 p bufC (cnt hs))).bind fun _ =>
        (Prog.call (.wait (2, 0))).bind fun _ =>
        (pl hs bufC).bind fun _ =>
        (Prog.call (.free 3)).bind fun _ => Prog.call (.free 2)
      else Prog.call (.free 2)).bind f) (a := ()) (τ := σ2)
    (by simp only [bodyG, Prog.bind_assoc])
    (by
      rw [eval_seq (eval_call (exec_alloc hσ.s2))]
      refine eval_call ?_
      rw [exec_irecv (by exact hσ.req _) (by
        intro j hj
        refine writable_of (by exact hσ.req) ?_
        simp [Local.inBounds, dims]; omega)])
  -- the header arrives intact
  have hdata : ∀ env : ℕ → Local (ℕ ⊕ α), env p = τ1 → ((env p).sent (0, 0))[σ.rcvd (p, 0)]? = some (readMem m1 dims nd) := by
    intro env h
    rw [h]
    simp only [τ1, Function.update_self]
    rw [← hbal, List.getElem?_append_right le_rfl]
    simp
  let σ3 : Local (ℕ ⊕ α) := { σ2 with req := Function.update σ2.req (2, 0) none, mem := fillMem σ.mem dims (readMem m1 dims nd) }
  have hσ3r : ∀ id, σ3.req id = none := by
    intro id
    simp only [σ3, σ2, Function.update_apply]
    split_ifs
    · rfl
    · exact hσ.req id
  have hld : ∀ env : ℕ → Local (ℕ ⊕ α), (loadNats 0 nd).eval e 0 env σ3 = some (hs, σ3) := by
    intro env
    subst hnd
    refine eval_loadNats fun j hj => ?_
    refine ⟨readable_of hσ3r (by simp [Local.inBounds, σ3, σ2, dims]; omega), ?_⟩
    simp only [σ3, fillMem_readMem]
    rw [if_pos ⟨rfl, by simp, by simp; omega⟩]
    have := hm1h j hj
    simpa [dims] using this
  by_cases hn : cnt hs > 0
  · -- with data
    let τ3 : Local (ℕ ⊕ α) := { τ1 with
      req := Function.update (Function.update τ1.req (2, 0) none) (2, 0)
        (some (.send 0 0 ((τ.sent (0, 0)).length + 1) (e p (τ.nsend + 1)) ⟨part, cnt hs⟩))
      sent := Function.update τ1.sent (0, 0) (τ.sent (0, 0) ++ [readMem m1 dims nd] ++ [readMem m1 part (cnt hs)])
      nsend := τ.nsend + 2 }
    have hτ1w : ∀ id, Function.update τ1.req (2, 0) none id = none := by
      intro id
      simp only [τ1, Function.update_apply]
      split_ifs
      · rfl
      · exact hτ.req id
    have st3 := stepP (e := e) (s := s) hp (A := ⟨(Prog.call (.wait (2, 0))).bind fun _ =>
        if cnt hs > 0 then
          (Prog.call (.isend (2, 0) 0 0 part (cnt hs) true)).bind fun _ =>
          (Prog.call (.wait (2, 0))).bind fun _ => Prog.call (.free 2)
        else Prog.call (.free 2), τ1⟩)
      (B := ⟨(Prog.call (.wait (2, 0))).bind fun _ =>
        (loadNats 0 nd).bind fun hs =>
        (if cnt hs > 0 then
          (Prog.call (.alloc 3 (cnt hs))).bind fun _ =>
          (Prog.call (.irecv (2, 0) 0 p bufC (cnt hs))).bind fun _ =>
          (Prog.call (.wait (2, 0))).bind fun _ =>
          (pl hs bufC).bind fun _ =>
          (Prog.call (.free 3)).bind fun _ => Prog.call (.free 2)
        else Prog.call (.free 2)).bind f, σ2⟩)
      (x := (Prog.call (.wait (2, 0))).bind fun _ => Prog.call (.isend (2, 0) 0 0 part (cnt hs) true))
      (f := fun _ => (Prog.call (.wait (2, 0))).bind fun _ => Prog.call (.free 2)) (a := ()) (τ := τ3)
      (by simp only [hn, if_true, Prog.bind_assoc])
      (by
        rw [eval_seq (eval_call (exec_wait_send (by simp only [τ1, Function.update_self]; rfl) (by
          simp only [upd2_zero, σ2, Function.update_self]; omega)))]
        refine eval_call ?_
        rw [exec_isend (by exact hτ1w (2, 0)) (by
          intro j hj
          refine readable_of (by exact hτ1w) ?_
          have := hpb j hj
          simpa [Local.inBounds, τ1, Function.update_of_ne hpart] using this)]
        simp [τ3, τ1])
    let σ4 : Local (ℕ ⊕ α) := { σ3 with
      size := Function.update σ3.size 3 (cnt hs)
      req := Function.update σ3.req (2, 0) (some (.recv p 0 (σ.rcvd (p, 0) + 1) ⟨bufC, cnt hs⟩))
      rcvd := Function.update σ.rcvd (p, 0) (σ.rcvd (p, 0) + 2) }
    have st4 := step0 (e := e) (s := s) (p := p) (A := ⟨(Prog.call (.wait (2, 0))).bind fun _ => Prog.call (.free 2), τ3⟩)
      (B := ⟨(Prog.call (.wait (2, 0))).bind fun _ =>
        (loadNats 0 nd).bind fun hs =>
        (if cnt hs > 0 then
          (Prog.call (.alloc 3 (cnt hs))).bind fun _ =>
          (Prog.call (.irecv (2, 0) 0 p bufC (cnt hs))).bind fun _ =>
          (Prog.call (.wait (2, 0))).bind fun _ =>
          (pl hs bufC).bind fun _ =>
          (Prog.call (.free 3)).bind fun _ => Prog.call (.free 2)
        else Prog.call (.free 2)).bind f, σ2⟩)
      (x := (Prog.call (.wait (2, 0))).bind fun _ => (loadNats 0 nd).bind fun hs' =>
        (if cnt hs' > 0 then
          (Prog.call (.alloc 3 (cnt hs'))).bind fun _ =>
          (Prog.call (.irecv (2, 0) 0 p bufC (cnt hs'))).bind fun _ => .ret hs'
        else .ret hs'))
      (f := fun hs => if cnt hs > 0 then
          (Prog.call (.wait (2, 0))).bind fun _ =>
          (pl hs bufC).bind fun _ =>
          (Prog.call (.free 3)).bind fun _ => (Prog.call (.free 2)).bind f else (Prog.call (.free 2)).bind f) (a := hs) (τ := σ4)
      (by
        simp only [Prog.bind_assoc]
        congr 1; funext _; congr 1; funext hs'
        by_cases h : cnt hs' > 0
        · simp only [h, if_true, Prog.bind_assoc, Prog.ret_bind]
        · simp only [h, if_false, Prog.ret_bind])
      (by
        rw [eval_seq (eval_call (exec_wait_recv (by simp only [σ2, Function.update_self]; rfl) (by
          simp only [upd2_p s hp, τ3, Function.update_self]
          rw [← hbal, List.append_assoc, List.getElem?_append_right le_rfl]
          simp only [Nat.sub_self, List.singleton_append, List.getElem?_cons_zero]; rfl) (by simp [readMem_length]))),
          eval_seq (hld _)]
        simp only [hn, if_true]
        rw [eval_seq (eval_call (exec_alloc (by simp [σ3, σ2, hσ.s3])))]
        rw [eval_seq (eval_call (exec_irecv (by exact hσ3r (2, 0)) (by
          intro j hj
          refine writable_of (by exact hσ3r) ?_
          simpa [Local.inBounds, bufC] using hj)))]
        simp [Prog.eval, σ4, σ3, σ2])
    let τ5 : Local (ℕ ⊕ α) := { τ3 with req := Function.update τ3.req (2, 0) none, size := Function.update τ3.size 2 0 }
    have hτ5r : ∀ id, Function.update τ3.req (2, 0) none id = none := by
      intro id
      simp only [τ3, τ1, Function.update_apply]
      split_ifs
      · rfl
      · exact hτ.req id
    have st5 := stepP (e := e) (s := s) hp (A := ⟨(Prog.call (.wait (2, 0))).bind fun _ => Prog.call (.free 2), τ3⟩)
      (B := ⟨(Prog.call (.wait (2, 0))).bind fun _ =>
          (pl hs bufC).bind fun _ =>
          (Prog.call (.free 3)).bind fun _ => (Prog.call (.free 2)).bind f, σ4⟩)
      (x := (Prog.call (.wait (2, 0))).bind fun _ => Prog.call (.free 2)) (f := fun _ => .ret ()) (a := ()) (τ := τ5)
      (by rw [Prog.bind_unit])
      (by
        rw [eval_seq (eval_call (exec_wait_send (by simp only [τ3, Function.update_self]; rfl) (by
          simp only [upd2_zero, σ4, Function.update_self]; omega)))]
        exact eval_call (exec_free (by exact hτ5r)))
    let σ5 : Local (ℕ ⊕ α) := { σ4 with req := Function.update σ4.req (2, 0) none,
                                         mem := fillMem σ4.mem bufC (readMem m1 part (cnt hs)) }
    have hσ5r : ∀ id, σ5.req id = none := by
      intro id
      simp only [σ5, σ4, Function.update_apply]
      split_ifs
      · rfl
      · exact hσ3r id
    obtain ⟨m6, h61, h62, h63⟩ := hpl e 0 (fun j => (upd2 s p ⟨.ret (), τ5⟩ ⟨(Prog.call (.wait (2, 0))).bind fun _ =>
          (pl hs bufC).bind fun _ =>
          (Prog.call (.free 3)).bind fun _ => (Prog.call (.free 2)).bind f, σ4⟩ j).loc) bufC σ5
      (by simpa [bufC] using hw3.symm) hσ5r
      (by
        intro x hx
        have := hwb x hx
        simpa [Local.inBounds, σ5, σ4, σ3, σ2, Function.update_of_ne hw2, Function.update_of_ne hw3] using this)
      (by intro j hj; simpa [Local.inBounds, σ5, σ4, bufC] using hj)
    let σ6 : Local (ℕ ⊕ α) := { σ5 with mem := m6, size := Function.update (Function.update σ5.size 3 0) 2 0 }
    have st6 := step0 (e := e) (s := s) (p := p) (A := ⟨.ret (), τ5⟩) (B := ⟨(Prog.call (.wait (2, 0))).bind fun _ =>
          (pl hs bufC).bind fun _ =>
          (Prog.call (.free 3)).bind fun _ => (Prog.call (.free 2)).bind f, σ4⟩)
      (x := (Prog.call (.wait (2, 0))).bind fun _ =>
          (pl hs bufC).bind fun _ =>
          (Prog.call (.free 3)).bind fun _ => Prog.call (.free 2)) (f := f) (a := ()) (τ := σ6)
      (by simp only [Prog.bind_assoc])
      (by
        rw [eval_seq (eval_call (exec_wait_recv (data := readMem m1 part (cnt hs)) (by simp only [σ4, Function.update_self]; rfl) (by
          simp only [upd2_p s hp, τ5, τ3, Function.update_self]
          rw [← hbal, List.getElem?_append_right (by simp)]
          simp) (by simp [readMem_length])))]
        rw [eval_seq h61, eval_seq (eval_call (exec_free (by exact hσ5r)))]
        exact eval_call (exec_free (by exact hσ5r)))
    simp only [hn, if_true] at st4
    refine ⟨σ6, τ5, ?_, ⟨hσ5r, by simp [σ6], by simp [σ6, Function.update_apply]⟩, ⟨hτ5r, by simp [τ5], by simpa [τ5, τ3, τ1] using hτ.s3⟩,
      ?_, ?_, ?_, rfl, ?_, ?_, ?_, ?_, ?_, ?_⟩
    · rw [hs2]
      have := ((((st1.trans st2).trans st3).trans st4).trans st5).trans st6
      have hh : upd2 (upd2 s p ⟨senderG nd cnt hs part, τ⟩ ⟨(bodyG nd cnt pl p).bind f, σ⟩) p ⟨.ret (), τ5⟩ ⟨f (), σ6⟩ =
          upd2 s p ⟨.ret (), τ5⟩ ⟨f (), σ6⟩ := by
        funext j; simp only [upd2]; split_ifs <;> rfl
      rw [hh]
      exact this
    · funext b
      simp only [σ6, σ5, σ4, σ3, σ2, Function.update_apply]
      split_ifs with h1 h2
      · subst h1; exact hσ.s2.symm
      · subst h2; exact hσ.s3.symm
      · rfl
    · rfl
    · intro c hc
      simp [σ6, σ5, σ4, Function.update_of_ne hc]
    · intro c hc
      simp [τ5, τ3, τ1, Function.update_of_ne hc]
    · simp [τ5, τ3, σ6, σ5, σ4, hbal]
    · funext b
      simp only [τ5, τ3, τ1, Function.update_apply]
      split_ifs with h1
      · subst h1; exact hτ.s2.symm
      · rfl
    · intro a ha
      exact hm1o a (Or.inl ha)
    · intro x hx
      show m6 _ = _
      rw [h62 x hx]
      simp only [σ5, fillMem_readMem]
      rw [if_pos ⟨rfl, by simp [bufC], by simpa [bufC] using hpj x hx⟩]
      rw [hm1o _ (Or.inl (by simpa using hpart))]
      simp [bufC]
    · intro a h2 h3 hx
      show m6 _ = _
      rw [h63 a hx]
      simp only [σ5, σ4, σ3, fillMem_readMem]
      rw [if_neg (fun h => h3 h.1), if_neg (fun h => h2 h.1)]
  · -- nothing to send
    have hpairs : pairs = [] := by
      rcases List.eq_nil_or_concat' pairs with h | ⟨l, x, rfl⟩
      · exact h
      · have := hpj x (by simp); omega
    let τ3 : Local (ℕ ⊕ α) := { τ1 with req := Function.update τ1.req (2, 0) none, size := Function.update τ1.size 2 0 }
    have hτ1w : ∀ id, Function.update τ1.req (2, 0) none id = none := by
      intro id
      simp only [τ1, Function.update_apply]
      split_ifs
      · rfl
      · exact hτ.req id
    have st3 := stepP (e := e) (s := s) hp (A := ⟨(Prog.call (.wait (2, 0))).bind fun _ =>
        if cnt hs > 0 then
          (Prog.call (.isend (2, 0) 0 0 part (cnt hs) true)).bind fun _ =>
          (Prog.call (.wait (2, 0))).bind fun _ => Prog.call (.free 2)
        else Prog.call (.free 2), τ1⟩)
      (B := ⟨(Prog.call (.wait (2, 0))).bind fun _ =>
        (loadNats 0 nd).bind fun hs =>
        (if cnt hs > 0 then
          (Prog.call (.alloc 3 (cnt hs))).bind fun _ =>
          (Prog.call (.irecv (2, 0) 0 p bufC (cnt hs))).bind fun _ =>
          (Prog.call (.wait (2, 0))).bind fun _ =>
          (pl hs bufC).bind fun _ =>
          (Prog.call (.free 3)).bind fun _ => Prog.call (.free 2)
        else Prog.call (.free 2)).bind f, σ2⟩)
      (x := (Prog.call (.wait (2, 0))).bind fun _ => Prog.call (.free 2))
      (f := fun _ => .ret ()) (a := ()) (τ := τ3)
      (by simp only [hn, if_false, Prog.bind_unit])
      (by
        rw [eval_seq (eval_call (exec_wait_send (by simp only [τ1, Function.update_self]; rfl) (by
          simp only [upd2_zero, σ2, Function.update_self]; omega)))]
        exact eval_call (exec_free (by exact hτ1w)))
    let σ4 : Local (ℕ ⊕ α) := { σ3 with size := Function.update σ3.size 2 0 }
    have st4 := step0 (e := e) (s := s) (p := p) (A := ⟨.ret (), τ3⟩)
      (B := ⟨(Prog.call (.wait (2, 0))).bind fun _ =>
        (loadNats 0 nd).bind fun hs =>
        (if cnt hs > 0 then
          (Prog.call (.alloc 3 (cnt hs))).bind fun _ =>
          (Prog.call (.irecv (2, 0) 0 p bufC (cnt hs))).bind fun _ =>
          (Prog.call (.wait (2, 0))).bind fun _ =>
          (pl hs bufC).bind fun _ =>
          (Prog.call (.free 3)).bind fun _ => Prog.call (.free 2)
        else Prog.call (.free 2)).bind f, σ2⟩)
      (x := (Prog.call (.wait (2, 0))).bind fun _ =>
        (loadNats 0 nd).bind fun hs =>
        (if cnt hs > 0 then
          (Prog.call (.alloc 3 (cnt hs))).bind fun _ =>
          (Prog.call (.irecv (2, 0) 0 p bufC (cnt hs))).bind fun _ =>
          (Prog.call (.wait (2, 0))).bind fun _ =>
          (pl hs bufC).bind fun _ =>
          (Prog.call (.free 3)).bind fun _ => Prog.call (.free 2)
        else Prog.call (.free 2))) (f := f) (a := ()) (τ := σ4)
      (by simp only [Prog.bind_assoc])
      (by
        rw [eval_seq (eval_call (exec_wait_recv (by simp only [σ2, Function.update_self]; rfl) (by
          simp only [upd2_p s hp]
          exact hdata (fun _ => τ1) rfl) (by simp [readMem_length]))),
          eval_seq (hld _)]
        simp only [hn, if_false]
        exact eval_call (exec_free (by exact hσ3r)))
    refine ⟨σ4, τ3, ?_, ⟨hσ3r, by simp [σ4], by simpa [σ4, σ3, σ2] using hσ.s3⟩, ⟨hτ1w, by simp [τ3], by simpa [τ3, τ1] using hτ.s3⟩,
      ?_, rfl, ?_, rfl, ?_, ?_, ?_, ?_, ?_, ?_⟩
    · rw [hs2]
      have := ((st1.trans st2).trans st3).trans st4
      have hh : upd2 (upd2 s p ⟨senderG nd cnt hs part, τ⟩ ⟨(bodyG nd cnt pl p).bind f, σ⟩) p ⟨.ret (), τ3⟩ ⟨f (), σ4⟩ =
          upd2 s p ⟨.ret (), τ3⟩ ⟨f (), σ4⟩ := by
        funext j; simp only [upd2]; split_ifs <;> rfl
      rw [hh]
      exact this
    · funext b
      simp only [σ4, σ3, σ2, Function.update_apply]
      split_ifs with h1
      · subst h1; exact hσ.s2.symm
      · rfl
    · intro c hc
      simp [σ4, σ3, σ2, Function.update_of_ne hc]
    · intro c hc
      simp [τ3, τ1, Function.update_of_ne hc]
    · simp [τ3, τ1, σ4, σ3, σ2, hbal]
    · funext b
      simp only [τ3, τ1, Function.update_apply]
      split_ifs with h1
      · subst h1; exact hτ.s2.symm
      · rfl
    · intro a ha
      exact hm1o a (Or.inl ha)
    · intro x hx
      simp [hpairs] at hx
    · intro a h2 h3 hx
      simp only [σ4, σ3, fillMem_readMem]
      rw [if_neg (fun h => h2 h.1)]

end Fftwpp.Net
