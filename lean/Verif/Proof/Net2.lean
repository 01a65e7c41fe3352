import Verif.Proof.Gather2
import Verif.Model.Transpose

/-!
# Supersteps: a batch of nonblocking operations and local copies on every process, followed by waits
-/

namespace Fftwpp.Net
variable {V : Type}

/-- The words an operation reads when it is posted. -/
def Op.reads : Op V → Loc → Prop
  | .isend _ _ _ src n _, a => ∃ j < n, a = src + j
  | .moves l, a => ∃ x ∈ l, x.2 = a
  | _, _ => False

/-- The words an operation writes (for a receive: when it is waited for). -/
def Op.writes : Op V → Loc → Prop
  | .irecv _ _ _ dst n, a => ∃ j < n, a = dst + j
  | .moves l, a => ∃ x ∈ l, x.1 = a
  | _, _ => False

/-- The words reserved by a send. -/
def Op.held : Op V → Loc → Prop
  | .isend _ _ _ src n hold, a => hold = true ∧ ∃ j < n, a = src + j
  | _, _ => False

/-- The request. -/
def Op.rid : Op V → Option (ℕ × ℕ)
  | .isend id .. => some id
  | .irecv id .. => some id
  | _ => none

/-- The channel of a send. -/
def Op.schan : Op V → Option (ℕ × ℕ)
  | .isend _ ctx dst _ _ _ => some (dst, ctx)
  | _ => none

/-- The channel of a receive. -/
def Op.rchan : Op V → Option (ℕ × ℕ)
  | .irecv _ ctx src _ _ => some (src, ctx)
  | _ => none

/-- The operations of a superstep. -/
def Op.isPost : Op V → Prop
  | .isend .. => True
  | .irecv .. => True
  | .moves l => (l.map (·.1)).Nodup ∧ ∀ x ∈ l, ∀ y ∈ l, x.2 ≠ y.1
  | _ => False

/-- `o` may be followed by `o'`. -/
structure Op.Compat (o o' : Op V) : Prop where
  ww : ∀ a, o.writes a → ¬ o'.writes a
  wr : ∀ a, o.writes a → ¬ o'.reads a
  hw : ∀ a, o.held a → ¬ o'.writes a
  id : ∀ i, o.rid = some i → o'.rid ≠ some i
  sc : ∀ c, o.schan = some c → o'.schan ≠ some c
  rc : ∀ c, o.rchan = some c → o'.rchan ≠ some c

theorem region_has {base : Loc} {n : ℕ} {a : Loc} : (Region.mk base n).has a ↔ ∃ j < n, a = base + j := by
  unfold Region.has
  constructor
  · rintro ⟨h1, h2, h3⟩
    exact ⟨a.off - base.off, by simp only at *; omega, by ext <;> simp_all⟩
  · rintro ⟨j, hj, rfl⟩
    simp; omega

/-- Outcome of posting `l`. -/
structure Posted (l : List (Op V)) (σ σ' : Local V) : Prop where
  size : σ'.size = σ.size
  req_other : ∀ id, (∀ o ∈ l, o.rid ≠ some id) → σ'.req id = σ.req id
  req_recv : ∀ id ctx p dst n, .irecv id ctx p dst n ∈ l → σ'.req id = some (.recv p ctx (σ.rcvd (p, ctx)) ⟨dst, n⟩)
  req_send : ∀ id ctx p src n hold, .isend id ctx p src n hold ∈ l → ∃ bf r, σ'.req id = some (.send p ctx (σ.sent (p, ctx)).length bf r)
  sent_none : ∀ c, (∀ o ∈ l, o.schan ≠ some c) → σ'.sent c = σ.sent c
  sent_some : ∀ id ctx p src n hold, .isend id ctx p src n hold ∈ l → σ'.sent (p, ctx) = σ.sent (p, ctx) ++ [readMem σ.mem src n]
  rcvd_none : ∀ c, (∀ o ∈ l, o.rchan ≠ some c) → σ'.rcvd c = σ.rcvd c
  rcvd_some : ∀ id ctx p dst n, .irecv id ctx p dst n ∈ l → σ'.rcvd (p, ctx) = σ.rcvd (p, ctx) + 1
  mem_moves : ∀ mv, .moves mv ∈ l → ∀ x ∈ mv, σ'.mem x.1 = σ.mem x.2
  mem_other : ∀ a, (∀ mv, .moves mv ∈ l → ∀ x ∈ mv, x.1 ≠ a) → σ'.mem a = σ.mem a

theorem posts_eval {e : Eager} {i : ℕ} {env : ℕ → Local V} : ∀ {l : List (Op V)} {σ : Local V}, (∀ o ∈ l, o.isPost) →
    l.Pairwise Op.Compat → (∀ o ∈ l, ∀ a, o.reads a ∨ o.writes a → σ.inBounds a) →
    (∀ o ∈ l, ∀ id, o.rid = some id → σ.req id = none) →
    (∀ o ∈ l, ∀ id q, σ.req id = some q → ∀ a, q.reg.has a → ¬ o.writes a ∧ (q.isRecv → ¬ o.reads a)) →
    ∃ σ', (Prog.calls l).eval e i env σ = some ((), σ') ∧ Posted l σ σ' := by
  intro l
  induction l with
  | nil =>
    intro σ _ _ _ _ _
    exact ⟨σ, rfl, rfl, fun _ _ => rfl, by simp, by simp, fun _ _ => rfl, by simp, fun _ _ => rfl, by simp, by simp, fun _ _ => rfl⟩
  | cons o t ih =>
    intro σ hpost hpw hb hid hpend
    rw [List.pairwise_cons] at hpw
    obtain ⟨hpw1, hpw2⟩ := hpw
    have hrd : ∀ a, o.reads a → σ.readable a := by
      intro a ha
      refine ⟨hb o (by simp) a (Or.inl ha), fun id q hq hr hh => ?_⟩
      exact (hpend o (by simp) id q hq a hh).2 hr ha
    have hwr : ∀ a, o.writes a → σ.writable a := by
      intro a ha
      refine ⟨hb o (by simp) a (Or.inr ha), fun id q hq hh => ?_⟩
      exact (hpend o (by simp) id q hq a hh).1 ha
    cases o with
    | moves mv =>
      obtain ⟨hnd, hsd⟩ := hpost (.moves mv) (by simp)
      let σ1 : Local V := { σ with mem := moveMem σ.mem mv }
      have hex : (Op.moves mv).exec e i env σ = some σ1 := by
        simp only [Op.exec]
        rw [if_pos]
        exact ⟨hnd, hsd, fun x hx => ⟨hwr _ ⟨x, hx, rfl⟩, hrd _ ⟨x, hx, rfl⟩⟩⟩
      obtain ⟨σ', h1, h2⟩ := ih (σ := σ1) (fun o ho => hpost o (by simp [ho])) hpw2
        (fun o ho a ha => hb o (by simp [ho]) a ha) (fun o ho id h => hid o (by simp [ho]) id h)
        (fun o ho id q hq a => hpend o (by simp [ho]) id q hq a)
      have hkeep : ∀ o ∈ t, ∀ a, o.reads a → σ1.mem a = σ.mem a := by
        intro o ho a ha
        refine moveMem_not fun x hx heq => (hpw1 o ho).wr a ⟨x, hx, heq⟩ ha
      refine ⟨σ', ?_, ?_⟩
      · simp only [Prog.calls]
        rw [eval_seq (eval_call hex)]
        exact h1
      · refine ⟨h2.size, ?_, ?_, ?_, ?_, ?_, ?_, ?_, ?_, ?_⟩
        · intro id h; exact h2.req_other id fun o ho => h o (by simp [ho])
        · intro id ctx p dst n h; exact h2.req_recv id ctx p dst n (by simpa using h)
        · intro id ctx p src n hold h; exact h2.req_send id ctx p src n hold (by simpa using h)
        · intro c h; exact h2.sent_none c fun o ho => h o (by simp [ho])
        · intro id ctx p src n hold h
          have h' : Op.isend id ctx p src n hold ∈ t := by simpa using h
          rw [h2.sent_some id ctx p src n hold h']
          have : readMem σ1.mem src n = readMem σ.mem src n := by
            unfold readMem
            refine List.map_congr_left fun j hj => hkeep _ h' _ ⟨j, List.mem_range.1 hj, rfl⟩
          rw [this]
        · intro c h; exact h2.rcvd_none c fun o ho => h o (by simp [ho])
        · intro id ctx p dst n h; exact h2.rcvd_some id ctx p dst n (by simpa using h)
        · intro mv' h x hx
          rcases List.mem_cons.1 h with h | h
          · cases h
            rw [h2.mem_other]
            · exact moveMem_mem hnd hx
            · intro mv'' h'' y hy heq
              exact (hpw1 _ h'').ww x.1 ⟨x, hx, rfl⟩ ⟨y, hy, heq⟩
          · rw [h2.mem_moves mv' h x hx]
            exact hkeep _ h _ ⟨x, hx, rfl⟩
        · intro a h
          rw [h2.mem_other a fun mv' h' => h mv' (by simp [h'])]
          exact moveMem_not fun x hx => h mv (by simp) x hx
    | isend id ctx dst src n hold =>
      let σ1 : Local V := { σ with
        req := Function.update σ.req id
          (some (.send dst ctx (σ.sent (dst, ctx)).length (e i σ.nsend) ⟨src, if hold then n else 0⟩))
        sent := Function.update σ.sent (dst, ctx) (σ.sent (dst, ctx) ++ [readMem σ.mem src n])
        nsend := σ.nsend + 1 }
      have hex : (Op.isend id ctx dst src n hold).exec e i env σ = some σ1 :=
        exec_isend (hid _ (List.mem_cons_self) id rfl) fun j hj => hrd _ ⟨j, hj, rfl⟩
      obtain ⟨σ', h1, h2⟩ := ih (σ := σ1) (fun o ho => hpost o (by simp [ho])) hpw2
        (fun o ho a ha => hb o (by simp [ho]) a ha)
        (fun o ho id' h => by
          simp only [σ1]
          rw [Function.update_of_ne]
          · exact hid o (by simp [ho]) id' h
          · intro hh
            rw [hh] at h
            exact (hpw1 o ho).id id rfl h)
        (fun o ho id' q hq a ha => by
          by_cases hne : id' = id
          · subst hne
            simp only [σ1, Function.update_self, Option.some.injEq] at hq
            subst hq
            refine ⟨fun hw => ?_, fun hr => absurd hr (by simp [Req.isRecv])⟩
            simp only [Req.reg] at ha
            cases hold with
            | true =>
              refine (hpw1 o ho).hw a ⟨rfl, ?_⟩ hw
              exact region_has.1 (by simpa using ha)
            | false =>
              obtain ⟨j, hj, _⟩ := region_has.1 (by simpa using ha)
              omega
          · simp only [σ1, Function.update_of_ne hne] at hq
            exact hpend o (by simp [ho]) id' q hq a ha)
      refine ⟨σ', ?_, ?_⟩
      · simp only [Prog.calls]
        rw [eval_seq (eval_call hex)]
        exact h1
      · refine ⟨h2.size, ?_, ?_, ?_, ?_, ?_, ?_, ?_, ?_, ?_⟩
        · intro id' h
          rw [h2.req_other id' fun o ho => h o (by simp [ho])]
          simp only [σ1]
          rw [Function.update_of_ne]
          rintro rfl
          exact h _ (List.mem_cons_self) rfl
        · intro id' ctx' p dst' n' h; exact h2.req_recv id' ctx' p dst' n' (by simpa using h)
        · intro id' ctx' p src' n' hold' h
          rcases List.mem_cons.1 h with h | h
          · cases h
            rw [h2.req_other id fun o ho => (hpw1 o ho).id id rfl]
            simp only [σ1, Function.update_self]
            exact ⟨_, _, rfl⟩
          · obtain ⟨bf, r, hr⟩ := h2.req_send id' ctx' p src' n' hold' h
            refine ⟨bf, r, ?_⟩
            rw [hr]
            simp only [σ1]
            rw [Function.update_of_ne]
            intro hc
            exact (hpw1 _ h).sc _ rfl (by rw [← hc]; rfl)
        · intro c h
          rw [h2.sent_none c fun o ho => h o (by simp [ho])]
          simp only [σ1]
          rw [Function.update_of_ne]
          rintro rfl
          exact h _ (List.mem_cons_self) rfl
        · intro id' ctx' p src' n' hold' h
          rcases List.mem_cons.1 h with h | h
          · cases h
            rw [h2.sent_none _ fun o ho => (hpw1 o ho).sc _ rfl]
            simp [σ1]
          · rw [h2.sent_some id' ctx' p src' n' hold' h]
            simp only [σ1]
            rw [Function.update_of_ne]
            intro hc
            exact (hpw1 _ h).sc _ rfl (by rw [← hc]; rfl)
        · intro c h; exact h2.rcvd_none c fun o ho => h o (by simp [ho])
        · intro id' ctx' p dst' n' h; exact h2.rcvd_some id' ctx' p dst' n' (by simpa using h)
        · intro mv h x hx; exact h2.mem_moves mv (by simpa using h) x hx
        · intro a h; exact h2.mem_other a fun mv h' => h mv (by simp [h'])
    | irecv id ctx src dst n =>
      let σ1 : Local V := { σ with
        req := Function.update σ.req id (some (.recv src ctx (σ.rcvd (src, ctx)) ⟨dst, n⟩))
        rcvd := Function.update σ.rcvd (src, ctx) (σ.rcvd (src, ctx) + 1) }
      have hex : (Op.irecv id ctx src dst n).exec e i env σ = some σ1 :=
        exec_irecv (hid _ (List.mem_cons_self) id rfl) fun j hj => hwr _ ⟨j, hj, rfl⟩
      obtain ⟨σ', h1, h2⟩ := ih (σ := σ1) (fun o ho => hpost o (by simp [ho])) hpw2
        (fun o ho a ha => hb o (by simp [ho]) a ha)
        (fun o ho id' h => by
          simp only [σ1]
          rw [Function.update_of_ne]
          · exact hid o (by simp [ho]) id' h
          · intro hh
            rw [hh] at h
            exact (hpw1 o ho).id id rfl h)
        (fun o ho id' q hq a ha => by
          by_cases hne : id' = id
          · subst hne
            simp only [σ1, Function.update_self, Option.some.injEq] at hq
            subst hq
            have hw : (Op.irecv (V := V) id' ctx src dst n).writes a := region_has.1 ha
            exact ⟨(hpw1 o ho).ww a hw, fun _ => (hpw1 o ho).wr a hw⟩
          · simp only [σ1, Function.update_of_ne hne] at hq
            exact hpend o (by simp [ho]) id' q hq a ha)
      refine ⟨σ', ?_, ?_⟩
      · simp only [Prog.calls]
        rw [eval_seq (eval_call hex)]
        exact h1
      · refine ⟨h2.size, ?_, ?_, ?_, ?_, ?_, ?_, ?_, ?_, ?_⟩
        · intro id' h
          rw [h2.req_other id' fun o ho => h o (by simp [ho])]
          simp only [σ1]
          rw [Function.update_of_ne]
          rintro rfl
          exact h _ (List.mem_cons_self) rfl
        · intro id' ctx' p dst' n' h
          rcases List.mem_cons.1 h with h | h
          · cases h
            rw [h2.req_other id fun o ho => (hpw1 o ho).id id rfl]
            simp only [σ1, Function.update_self]
          · rw [h2.req_recv id' ctx' p dst' n' h]
            simp only [σ1]
            rw [Function.update_of_ne]
            intro hc
            exact (hpw1 _ h).rc _ rfl (by rw [← hc]; rfl)
        · intro id' ctx' p src' n' hold' h; exact h2.req_send id' ctx' p src' n' hold' (by simpa using h)
        · intro c h; exact h2.sent_none c fun o ho => h o (by simp [ho])
        · intro id' ctx' p src' n' hold' h; exact h2.sent_some id' ctx' p src' n' hold' (by simpa using h)
        · intro c h
          rw [h2.rcvd_none c fun o ho => h o (by simp [ho])]
          simp only [σ1]
          rw [Function.update_of_ne]
          rintro rfl
          exact h _ (List.mem_cons_self) rfl
        · intro id' ctx' p dst' n' h
          rcases List.mem_cons.1 h with h | h
          · cases h
            rw [h2.rcvd_none _ fun o ho => (hpw1 o ho).rc _ rfl]
            simp [σ1]
          · rw [h2.rcvd_some id' ctx' p dst' n' h]
            simp only [σ1]
            rw [Function.update_of_ne]
            intro hc
            exact (hpw1 _ h).rc _ rfl (by rw [← hc]; rfl)
        · intro mv h x hx; exact h2.mem_moves mv (by simpa using h) x hx
        · intro a h; exact h2.mem_other a fun mv h' => h mv (by simp [h'])
    | shuffle l => exact absurd (hpost _ (List.mem_cons_self)) (by simp [Op.isPost])
    | store a v => exact absurd (hpost _ (List.mem_cons_self)) (by simp [Op.isPost])
    | alloc b n => exact absurd (hpost _ (List.mem_cons_self)) (by simp [Op.isPost])
    | free b => exact absurd (hpost _ (List.mem_cons_self)) (by simp [Op.isPost])
    | comp c => exact absurd (hpost _ (List.mem_cons_self)) (by simp [Op.isPost])
    | wait id => exact absurd (hpost _ (List.mem_cons_self)) (by simp [Op.isPost])

/-- The pending request can be completed. -/
def Ready (i : ℕ) (env : ℕ → Local V) : Req → Prop
  | .send p ctx k _ _ => k < (env p).rcvd (i, ctx)
  | .recv p ctx k reg => ∃ data, ((env p).sent (i, ctx))[k]? = some data ∧ data.length ≤ reg.len

theorem fillMem_in {m : Loc → V} {base : Loc} {data : List V} {j : ℕ} (hj : j < data.length) : fillMem m base data (base + j) = data[j] := by
  unfold fillMem
  rw [if_pos (by simp)]
  simp [hj]

theorem fillMem_out {m : Loc → V} {base : Loc} {data : List V} {n : ℕ} {a : Loc} (hn : data.length ≤ n) (h : ¬ (Region.mk base n).has a) :
    fillMem m base data a = m a := by
  unfold fillMem
  split_ifs with h1
  · rw [List.getElem?_eq_none]
    · rfl
    · by_contra hc
      exact h ⟨h1.1, h1.2, by simp only; omega⟩
  · rfl

theorem waits_eval {e : Eager} {i : ℕ} {env : ℕ → Local V} : ∀ {l : List (ℕ × ℕ)} {σ : Local V},
    (∀ id ∈ l, ∀ q, σ.req id = some q → Ready i env q) →
    (∀ id id' q q', id ≠ id' → σ.req id = some q → σ.req id' = some q' → q.isRecv → q'.isRecv → ∀ a, q.reg.has a → ¬ q'.reg.has a) →
    ∃ σ', (Prog.calls (l.map fun id => .wait id)).eval e i env σ = some ((), σ') ∧ σ'.size = σ.size ∧ σ'.sent = σ.sent ∧ σ'.rcvd = σ.rcvd ∧
      (∀ id ∈ l, σ'.req id = none) ∧ (∀ id, id ∉ l → σ'.req id = σ.req id) ∧
      (∀ id ∈ l, ∀ p ctx k reg data, σ.req id = some (.recv p ctx k reg) → ((env p).sent (i, ctx))[k]? = some data →
        ∀ j, (h : j < data.length) → σ'.mem (reg.base + j) = data[j]) ∧
      ∀ a, (∀ id ∈ l, ∀ q, σ.req id = some q → q.isRecv → ¬ q.reg.has a) → σ'.mem a = σ.mem a := by
  intro l
  induction l with
  | nil =>
    intro σ _ _
    exact ⟨σ, rfl, rfl, rfl, rfl, by simp, fun _ _ => rfl, by simp, fun _ _ => rfl⟩
  | cons id t ih =>
    intro σ hr hd
    simp only [List.map_cons, Prog.calls]
    cases hq : σ.req id with
    | none =>
      obtain ⟨σ', h1, h2, h3, h4, h5, h6, h7, h8⟩ := ih (σ := σ) (fun id' h => hr id' (by simp [h])) hd
      refine ⟨σ', ?_, h2, h3, h4, ?_, ?_, ?_, ?_⟩
      · rw [eval_seq (eval_call (exec_wait_none hq))]; exact h1
      · intro id' h
        by_cases ht : id' ∈ t
        · exact h5 id' ht
        · rw [h6 id' ht]
          rcases List.mem_cons.1 h with rfl | h
          · exact hq
          · exact absurd h ht
      · intro id' h; exact h6 id' fun h' => h (by simp [h'])
      · intro id' h p ctx k reg data hreq
        rcases List.mem_cons.1 h with rfl | h
        · rw [hq] at hreq; cases hreq
        · exact h7 id' h p ctx k reg data hreq
      · intro a h; exact h8 a fun id' h' => h id' (by simp [h'])
    | some q =>
      -- the state after this wait
      have hcom : ∀ m' : Loc → V, (Op.wait id).exec e i env σ = some { σ with req := Function.update σ.req id none, mem := m' } →
          (∀ p ctx k reg data, q = .recv p ctx k reg → ((env p).sent (i, ctx))[k]? = some data →
            ∀ j, (h : j < data.length) → m' (reg.base + j) = data[j]) →
          (∀ p ctx k reg data, q = .recv p ctx k reg → ((env p).sent (i, ctx))[k]? = some data → data.length ≤ reg.len) →
          (∀ a, (q.isRecv → ¬ q.reg.has a) → m' a = σ.mem a) →
          ∃ σ', ((Prog.call (Op.wait id)).bind fun _ => Prog.calls (t.map fun id => .wait id)).eval e i env σ = some ((), σ') ∧ σ'.size = σ.size ∧ σ'.sent = σ.sent ∧ σ'.rcvd = σ.rcvd ∧
            (∀ id' ∈ id :: t, σ'.req id' = none) ∧ (∀ id', id' ∉ id :: t → σ'.req id' = σ.req id') ∧
            (∀ id' ∈ id :: t, ∀ p ctx k reg data, σ.req id' = some (.recv p ctx k reg) → ((env p).sent (i, ctx))[k]? = some data →
              ∀ j, (h : j < data.length) → σ'.mem (reg.base + j) = data[j]) ∧
            ∀ a, (∀ id' ∈ id :: t, ∀ q, σ.req id' = some q → q.isRecv → ¬ q.reg.has a) → σ'.mem a = σ.mem a := by
        intro m' hex hin hlen hout
        have hsub : ∀ id' q', Function.update σ.req id none id' = some q' → id' ≠ id ∧ σ.req id' = some q' := by
          intro id' q' h
          by_cases hne : id' = id
          · subst hne; simp at h
          · rw [Function.update_of_ne hne] at h; exact ⟨hne, h⟩
        obtain ⟨σ', h1, h2, h3, h4, h5, h6, h7, h8⟩ := ih (σ := { σ with req := Function.update σ.req id none, mem := m' })
          (fun id' h q' hq' => hr id' (by simp [h]) q' (hsub id' q' hq').2)
          (fun id1 id2 q1 q2 hne h1 h2 => hd id1 id2 q1 q2 hne (hsub _ _ h1).2 (hsub _ _ h2).2)
        refine ⟨σ', ?_, h2, h3, h4, ?_, ?_, ?_, ?_⟩
        · rw [eval_seq (eval_call hex)]; exact h1
        · intro id' h
          by_cases ht : id' ∈ t
          · exact h5 id' ht
          · rw [h6 id' ht]
            rcases List.mem_cons.1 h with rfl | h
            · simp
            · exact absurd h ht
        · intro id' h
          rw [h6 id' fun h' => h (by simp [h'])]
          simp only
          rw [Function.update_of_ne fun h' => h (by simp [h'])]
        · intro id' h p ctx k reg data hreq hdat j hj
          by_cases hne : id' = id
          · subst hne
            rw [hq] at hreq
            cases hreq
            rw [h8]
            · exact hin p ctx k reg data rfl hdat j hj
            · intro id2 hid2 q2 hq2 hrec hh
              obtain ⟨a1, a2⟩ := hsub id2 q2 hq2
              have hl := hlen p ctx k reg data rfl hdat
              exact hd id' id2 _ q2 (Ne.symm a1) hq a2 trivial hrec (reg.base + j) (region_has.2 ⟨j, by omega, rfl⟩) hh
          · rcases List.mem_cons.1 h with h | h
            · exact absurd h hne
            · exact h7 id' h p ctx k reg data (by simp only; rw [Function.update_of_ne hne]; exact hreq) hdat j hj
        · intro a h
          rw [h8 a fun id' h' q' hq' => h id' (by simp [h']) q' (hsub id' q' hq').2]
          exact hout a (h id (by simp) q hq)
      have hrq := hr id (by simp) q hq
      cases q with
      | send p ctx k bf reg =>
        have hex := exec_wait_send (e := e) (i := i) (env := env) hq hrq
        exact hcom σ.mem hex (by intro _ _ _ _ _ h; cases h) (by intro _ _ _ _ _ h; cases h) (fun a _ => rfl)
      | recv p ctx k reg =>
        obtain ⟨data, hdat, hl⟩ := hrq
        have hex := exec_wait_recv (e := e) (i := i) (env := env) hq hdat hl
        refine hcom _ hex ?_ ?_ ?_
        · intro p' ctx' k' reg' data' h hd' j hj
          cases h
          rw [hdat] at hd'
          cases hd'
          exact fillMem_in hj
        · intro p' ctx' k' reg' data' h hd'
          cases h
          rw [hdat] at hd'
          cases hd'
          exact hl
        · intro a ha
          exact fillMem_out hl (ha trivial)

end Fftwpp.Net
