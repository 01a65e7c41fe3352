import Verif.Model.Comm
import Verif.Proof.Net3

/-!
# Groups of processes that communicate among themselves
-/

namespace Fftwpp.Net
variable {V : Type}

/-- A request seen from outside the communicator. -/
def Req.on (f cx : ℕ → ℕ) : Req → Req
  | .send p c k b r => .send (f p) (cx c) k b r
  | .recv p c k r => .recv (f p) (cx c) k r

theorem Req.on_reg (f cx : ℕ → ℕ) (q : Req) : (q.on f cx).reg = q.reg := by cases q <;> rfl
theorem Req.on_isRecv (f cx : ℕ → ℕ) (q : Req) : (q.on f cx).isRecv ↔ q.isRecv := by cases q <;> rfl

/-- The state `τ` of a process of the group is the state `σ` seen from outside. -/
structure LocOn (f cx : ℕ → ℕ) (σ τ : Local V) : Prop where
  size : τ.size = σ.size
  mem : τ.mem = σ.mem
  nsend : τ.nsend = σ.nsend
  req : ∀ id, τ.req id = (σ.req id).map (Req.on f cx)

theorem LocOn.readable {f cx : ℕ → ℕ} {σ τ : Local V} (h : LocOn f cx σ τ) (a : Loc) : τ.readable a ↔ σ.readable a := by
  unfold Local.readable Local.inBounds
  rw [h.size]
  refine and_congr_right fun _ => ⟨fun hh id q hq hr => ?_, fun hh id q hq hr => ?_⟩
  · have := hh id (q.on f cx) (by rw [h.req, hq]; rfl) ((q.on_isRecv f cx).2 hr)
    rwa [Req.on_reg] at this
  · rw [h.req] at hq
    obtain ⟨q', hq', rfl⟩ := Option.map_eq_some_iff.1 hq
    rw [Req.on_reg]
    exact hh id q' hq' ((q'.on_isRecv f cx).1 hr)

theorem LocOn.writable {f cx : ℕ → ℕ} {σ τ : Local V} (h : LocOn f cx σ τ) (a : Loc) : τ.writable a ↔ σ.writable a := by
  unfold Local.writable Local.inBounds
  rw [h.size]
  refine and_congr_right fun _ => ⟨fun hh id q hq => ?_, fun hh id q hq => ?_⟩
  · have := hh id (q.on f cx) (by rw [h.req, hq]; rfl)
    rwa [Req.on_reg] at this
  · rw [h.req] at hq
    obtain ⟨q', hq', rfl⟩ := Option.map_eq_some_iff.1 hq
    rw [Req.on_reg]
    exact hh id q' hq'

/-- The channels: `τ` restricted to the communicator is `σ`. -/
def ChanOn (f cx : ℕ → ℕ) (σ τ : Local V) : Prop :=
  (∀ j c, τ.sent (f j, cx c) = σ.sent (j, c)) ∧ ∀ j c, τ.rcvd (f j, cx c) = σ.rcvd (j, c)

/-- The channels outside the communicator are the same. -/
def ChanKeep (f cx : ℕ → ℕ) (τ τ' : Local V) : Prop :=
  ∀ d, (∀ j c, d ≠ (f j, cx c)) → τ'.sent d = τ.sent d ∧ τ'.rcvd d = τ.rcvd d

theorem ChanKeep.refl (f cx : ℕ → ℕ) (τ : Local V) : ChanKeep f cx τ τ := fun _ _ => ⟨rfl, rfl⟩

theorem ChanKeep.trans {f cx : ℕ → ℕ} {a b c : Local V} (h : ChanKeep f cx a b) (h' : ChanKeep f cx b c) : ChanKeep f cx a c :=
  fun d hd => ⟨(h' d hd).1.trans (h d hd).1, (h' d hd).2.trans (h d hd).2⟩

theorem pair_on {f cx : ℕ → ℕ} (hf : Function.Injective f) (hc : Function.Injective cx) {j c j' c' : ℕ} : (f j, cx c) = (f j', cx c') ↔ (j, c) = (j', c') := by
  simp only [Prod.mk.injEq, hf.eq_iff, hc.eq_iff]

/-- A call on a communicator. -/
theorem Op.exec_on {f cx : ℕ → ℕ} (hf : Function.Injective f) (hc : Function.Injective cx) {e : Eager} {r : ℕ} {env env' : ℕ → Local V} {σ τ σ' : Local V}
    (hl : LocOn f cx σ τ) (hch : ChanOn f cx σ τ) (henv : ∀ j, ChanOn f cx (env j) (env' (f j))) {o : Op V}
    (h : o.exec (fun i n => e (f i) n) r env σ = some σ') :
    ∃ τ', (o.on f cx).exec e (f r) env' τ = some τ' ∧ LocOn f cx σ' τ' ∧ ChanOn f cx σ' τ' ∧ ChanKeep f cx τ τ' := by
  cases o with
  | moves l =>
    simp only [Op.exec, Op.on] at h ⊢
    split_ifs at h with hh
    cases h
    rw [if_pos (by simpa only [hl.readable, hl.writable] using hh)]
    exact ⟨_, rfl, ⟨hl.size, by rw [hl.mem], hl.nsend, hl.req⟩, hch, ChanKeep.refl _ _ _⟩
  | shuffle l =>
    simp only [Op.exec, Op.on] at h ⊢
    split_ifs at h with hh
    cases h
    rw [if_pos (by simpa only [hl.readable, hl.writable] using hh)]
    exact ⟨_, rfl, ⟨hl.size, by rw [hl.mem], hl.nsend, hl.req⟩, hch, ChanKeep.refl _ _ _⟩
  | store a v =>
    simp only [Op.exec, Op.on] at h ⊢
    split_ifs at h with hh
    cases h
    rw [if_pos ((hl.writable _).2 hh)]
    exact ⟨_, rfl, ⟨hl.size, by simp only [hl.mem], hl.nsend, hl.req⟩, hch, ChanKeep.refl _ _ _⟩
  | alloc b n =>
    simp only [Op.exec, Op.on] at h ⊢
    rw [hl.size]
    split_ifs at h ⊢ with hh
    cases h
    exact ⟨_, rfl, ⟨rfl, hl.mem, hl.nsend, hl.req⟩, hch, ChanKeep.refl _ _ _⟩
  | free b =>
    simp only [Op.exec, Op.on] at h ⊢
    split_ifs at h with hh
    cases h
    have hh' : ∀ id q, τ.req id = some q → q.reg.base.buf ≠ b := by
      intro id q hq
      rw [hl.req] at hq
      obtain ⟨q', hq', rfl⟩ := Option.map_eq_some_iff.1 hq
      rw [Req.on_reg]
      exact hh id q' hq'
    rw [if_pos hh']
    exact ⟨_, rfl, ⟨by simp only [hl.size], hl.mem, hl.nsend, hl.req⟩, hch, ChanKeep.refl _ _ _⟩
  | comp c =>
    simp only [Op.exec, Op.on] at h ⊢
    split_ifs at h with hh
    obtain ⟨m, hm, rfl⟩ := Option.map_eq_some_iff.1 h
    have hh' : ∀ id, τ.req id = none := fun id => by rw [hl.req, hh id]; rfl
    rw [if_pos hh', hl.size, hl.mem, hm]
    exact ⟨_, rfl, ⟨rfl, rfl, hl.nsend, hl.req⟩, hch, ChanKeep.refl _ _ _⟩
  | isend id ctx dst src n hold =>
    simp only [Op.exec, Op.on] at h ⊢
    by_cases hh : σ.req id = none ∧ ∀ j < n, σ.readable (src + j)
    swap
    · rw [if_neg hh] at h; cases h
    rw [if_pos hh] at h
    cases h
    rw [if_pos ⟨by rw [hl.req, hh.1]; rfl, fun j hj => (hl.readable _).2 (hh.2 j hj)⟩]
    refine ⟨_, rfl, ⟨hl.size, hl.mem, by simp only [hl.nsend], fun id' => ?_⟩, ⟨fun j c => ?_, hch.2⟩, fun d hd => ⟨?_, rfl⟩⟩
    · simp only [Function.update_apply]
      by_cases hid : id' = id
      · rw [if_pos hid, if_pos hid, hch.1, hl.nsend]; rfl
      · rw [if_neg hid, if_neg hid]; exact hl.req id'
    · simp only [Function.update_apply]
      simp only [pair_on hf hc, hch.1, hl.mem]
    · simp only
      rw [Function.update_of_ne (hd dst ctx)]
  | irecv id ctx src dst n =>
    simp only [Op.exec, Op.on] at h ⊢
    split_ifs at h with hh
    cases h
    rw [if_pos ⟨by rw [hl.req, hh.1]; rfl, fun j hj => (hl.writable _).2 (hh.2 j hj)⟩]
    refine ⟨_, rfl, ⟨hl.size, hl.mem, hl.nsend, fun id' => ?_⟩, ⟨hch.1, fun j c => ?_⟩, fun d hd => ⟨rfl, ?_⟩⟩
    · simp only [Function.update_apply]
      split_ifs
      · rw [hch.2]; rfl
      · exact hl.req id'
    · simp only [Function.update_apply]
      simp only [pair_on hf hc, hch.2]
    · simp only
      rw [Function.update_of_ne (hd src ctx)]
  | wait id =>
    simp only [Op.exec, Op.on] at h ⊢
    rw [hl.req]
    cases hq : σ.req id with
    | none =>
      rw [hq] at h
      cases h
      exact ⟨τ, rfl, hl, hch, ChanKeep.refl _ _ _⟩
    | some q =>
      have hreq : ∀ id', Function.update τ.req id none id' = (Function.update σ.req id none id').map (Req.on f cx) := by
        intro id'
        simp only [Function.update_apply]
        split_ifs
        · rfl
        · exact hl.req id'
      cases q with
      | send peer ctx k bf reg =>
        rw [hq] at h
        simp only [Option.map_some, Req.on] at h ⊢
        rw [(henv peer).2 r ctx]
        split_ifs at h ⊢ with hh
        cases h
        exact ⟨_, rfl, ⟨hl.size, hl.mem, hl.nsend, hreq⟩, hch, ChanKeep.refl _ _ _⟩
      | recv peer ctx k reg =>
        rw [hq] at h
        simp only [Option.map_some, Req.on] at h ⊢
        rw [(henv peer).1 r ctx]
        cases hd : ((env peer).sent (r, ctx))[k]? with
        | none => rw [hd] at h; cases h
        | some data =>
          rw [hd] at h
          simp only at h ⊢
          split_ifs at h ⊢ with hh
          cases h
          exact ⟨_, rfl, ⟨hl.size, by rw [hl.mem], hl.nsend, hreq⟩, hch, ChanKeep.refl _ _ _⟩

/-- The group's state `S` (ranks), and the state `B` of all the processes, which was `B0` when the group started. -/
structure Emb (f cx : ℕ → ℕ) (P : ℕ) (k : ℕ → Prog V Unit) (B0 S B : St V) : Prop where
  prog : ∀ r < P, (B (f r)).prog = ((S r).prog.on f cx).bind fun _ => k r
  fin : ∀ r, P ≤ r → (S r).prog = .ret ()
  loc : ∀ r < P, LocOn f cx (S r).loc (B (f r)).loc
  chan : ∀ r, ChanOn f cx (S r).loc (B (f r)).loc
  other : ∀ i, (∀ r < P, f r ≠ i) → B i = B0 i
  keep : ∀ r < P, ChanKeep f cx (B0 (f r)).loc (B (f r)).loc

theorem Emb.step {f cx : ℕ → ℕ} (hf : Function.Injective f) (hc : Function.Injective cx) {P : ℕ} {k : ℕ → Prog V Unit} {B0 S B S' : St V} {e : Eager}
    (h : Emb f cx P k B0 S B) (hs : Step (fun i n => e (f i) n) S S') : ∃ B', Step e B B' ∧ Emb f cx P k B0 S' B' := by
  obtain ⟨r, p, hp, rfl⟩ := hs
  by_cases hr : r < P
  swap
  · simp only [Proc.step, h.fin r (by omega)] at hp
    cases hp
  have fin : ∀ q, LocOn f cx p.loc q.loc → ChanOn f cx p.loc q.loc → ChanKeep f cx (B (f r)).loc q.loc → q.prog = (p.prog.on f cx).bind (fun _ => k r) →
      Emb f cx P k B0 (Function.update S r p) (Function.update B (f r) q) := by
    intro q h1 h2 h3 h4
    have hB : ∀ j, j ≠ r → Function.update B (f r) q (f j) = B (f j) := fun j hj => Function.update_of_ne (fun hh => hj (hf hh)) _ _
    refine ⟨fun j hj => ?_, fun j hj => ?_, fun j hj => ?_, fun j => ?_, fun i hi => ?_, fun j hj => ?_⟩
    · by_cases hjr : j = r
      · subst hjr; simp only [Function.update_self]; exact h4
      · rw [hB j hjr, Function.update_of_ne hjr]; exact h.prog j hj
    · rw [Function.update_of_ne (by omega)]; exact h.fin j hj
    · by_cases hjr : j = r
      · subst hjr; simp only [Function.update_self]; exact h1
      · rw [hB j hjr, Function.update_of_ne hjr]; exact h.loc j hj
    · by_cases hjr : j = r
      · subst hjr; simp only [Function.update_self]; exact h2
      · rw [hB j hjr, Function.update_of_ne hjr]; exact h.chan j
    · rw [Function.update_of_ne (fun hh => hi r hr hh.symm)]; exact h.other i hi
    · by_cases hjr : j = r
      · subst hjr; simp only [Function.update_self]; exact (h.keep j hj).trans h3
      · rw [hB j hjr]; exact h.keep j hj
  unfold Proc.step at hp
  cases hpr : (S r).prog with
  | ret a => rw [hpr] at hp; cases hp
  | fail => rw [hpr] at hp; cases hp
  | op o x =>
    rw [hpr] at hp
    obtain ⟨σ, hσ, rfl⟩ := Option.map_eq_some_iff.1 hp
    obtain ⟨τ, t1, t2, t3, t4⟩ := Op.exec_on hf hc (env' := fun j => (B j).loc) (h.loc r hr) (h.chan r) (fun j => h.chan j) hσ
    refine ⟨_, ⟨f r, ⟨(x.on f cx).bind fun _ => k r, τ⟩, ?_, rfl⟩, fin _ t2 t3 t4 rfl⟩
    unfold Proc.step
    rw [h.prog r hr, hpr]
    simp only [Prog.on, Prog.bind, t1, Option.map_some]
  | load a x =>
    rw [hpr] at hp
    simp only at hp
    split_ifs at hp with hrd
    cases hp
    refine ⟨_, ⟨f r, ⟨((x ((S r).loc.mem a)).on f cx).bind fun _ => k r, (B (f r)).loc⟩, ?_, rfl⟩, fin _ (h.loc r hr) (h.chan r) (ChanKeep.refl _ _ _) rfl⟩
    unfold Proc.step
    rw [h.prog r hr, hpr]
    simp only [Prog.on, Prog.bind]
    rw [if_pos (((h.loc r hr).readable a).2 hrd), (h.loc r hr).mem]

theorem Emb.steps {f cx : ℕ → ℕ} (hf : Function.Injective f) (hc : Function.Injective cx) {P : ℕ} {k : ℕ → Prog V Unit} {B0 : St V} {e : Eager} {n : ℕ} :
    ∀ {S B S' : St V}, Emb f cx P k B0 S B → StepN (fun i n => e (f i) n) n S S' → ∃ B', Steps e B B' ∧ Emb f cx P k B0 S' B' := by
  induction n with
  | zero => intro S B S' h hs; cases hs; exact ⟨B, Steps.refl e B, h⟩
  | succ n ih =>
    intro S B S' h hs
    cases hs with
    | succ h1 h2 =>
      obtain ⟨B1, b1, b2⟩ := h.step hf hc h1
      obtain ⟨B2, c1, c2⟩ := ih b2 h2
      exact ⟨B2, (Steps.one b1).trans c1, c2⟩

/-- The groups `g < G` of `P` processes each, out of `Q` processes. -/
structure Groups (Q G P : ℕ) (f : ℕ → ℕ → ℕ) : Prop where
  inj : ∀ g, Function.Injective (f g)
  lt : ∀ g < G, ∀ r < P, f g r < Q
  ge : ∀ g, ∀ r, P ≤ r → Q ≤ f g r
  cover : ∀ i < Q, ∃ g < G, ∃ r < P, f g r = i
  disj : ∀ g < G, ∀ r < P, ∀ g' < G, ∀ r' < P, f g r = f g' r' → g = g' ∧ r = r'

/-- All the groups run. -/
theorem groups_step {Q G P : ℕ} {f : ℕ → ℕ → ℕ} (hg : Groups Q G P f) {cx : ℕ → ℕ} (hc : Function.Injective cx) {e : Eager} {s : St V}
    {x : ℕ → ℕ → Prog V Unit} {prog k : ℕ → Prog V Unit} (hq : Quiet Q prog s)
    (hprog : ∀ g < G, ∀ r < P, prog (f g r) = ((x g r).on (f g) cx).bind fun _ => k (f g r))
    {R : ℕ → (ℕ → Loc → V) → Prop}
    (hR : ∀ g m m', (∀ r < P, m r = m' r) → R g m → R g m')
    (hx : ∀ g < G, ∀ (e' : Eager) (S : St V), Quiet P (x g) S → (∀ r < P, (S r).loc.mem = (s (f g r)).loc.mem ∧ (S r).loc.size = (s (f g r)).loc.size) →
      ∃ T, Steps e' S T ∧ Quiet P (fun _ => .ret ()) T ∧ (∀ r, (T r).loc.size = (S r).loc.size) ∧ R g fun r => (T r).loc.mem) :
    ∃ t, Steps e s t ∧ Quiet Q k t ∧ (∀ i, (t i).loc.size = (s i).loc.size) ∧ ∀ g < G, R g fun r => (t (f g r)).loc.mem := by
  have key : ∀ n ≤ G, ∃ t, Steps e s t ∧ Quiet Q (fun i => (t i).prog) t ∧ (∀ g < n, ∀ r < P, (t (f g r)).prog = k (f g r)) ∧
      (∀ i, (∀ g < n, ∀ r < P, f g r ≠ i) → t i = s i ∨ False) ∧ (∀ i, (t i).loc.size = (s i).loc.size) ∧
      ∀ g < n, R g fun r => (t (f g r)).loc.mem := by
    intro n
    induction n with
    | zero =>
      intro _
      exact ⟨s, Steps.refl e s, ⟨fun _ _ => rfl, hq.done, hq.req, hq.bal⟩, by simp, fun i _ => Or.inl rfl, fun _ => rfl, by simp⟩
    | succ n ih =>
      intro hn
      obtain ⟨t, t1, t2, t3, t4, t5, t6⟩ := ih (by omega)
      have hnG : n < G := by omega
      have hts : ∀ r < P, t (f n r) = s (f n r) := fun r hr => (t4 (f n r) (fun g hgn r' hr' he => by
        have := (hg.disj g (by omega) r' hr' n hnG r hr he).1
        omega)).resolve_right id
      let S : St V := fun r => ⟨if r < P then x n r else .ret (), { (t (f n r)).loc with
        req := fun _ => none, sent := fun c => (t (f n r)).loc.sent (f n c.1, cx c.2), rcvd := fun c => (t (f n r)).loc.rcvd (f n c.1, cx c.2) }⟩
      have hE : Emb (f n) cx P (fun r => k (f n r)) t S t := by
        refine ⟨fun r hr => ?_, fun r hr => ?_, fun r hr => ⟨rfl, rfl, rfl, fun id => ?_⟩, fun r => ⟨fun _ _ => rfl, fun _ _ => rfl⟩, fun _ _ => rfl,
          fun r _ => ChanKeep.refl _ _ _⟩
        · simp only [S, if_pos hr]
          rw [hts r hr, hq.prog _ (hg.lt n hnG r hr), hprog n hnG r hr]
        · simp only [S, if_neg (show ¬ r < P by omega)]
        · rw [t2.req _ (hg.lt n hnG r hr)]; rfl
      obtain ⟨T, T1, T2, T3, T4⟩ := hx n hnG (fun i m => e (f n i) m) S
        ⟨fun i hi => by simp only [S, if_pos hi], fun i hi => by simp only [S, if_neg (show ¬ i < P by omega)], fun _ _ _ => rfl,
          fun i hi j hj ctx => t2.bal _ (hg.lt n hnG i hi) _ (hg.lt n hnG j hj) _⟩
        (fun r hr => ⟨by rw [← hts r hr], by rw [← hts r hr]⟩)
      obtain ⟨m, hm⟩ := T1
      obtain ⟨B, b1, b2⟩ := hE.steps (hg.inj n) hc hm
      have hBp : ∀ r < P, (B (f n r)).prog = k (f n r) := by
        intro r hr
        rw [b2.prog r hr, T2.prog r hr]; rfl
      refine ⟨B, t1.trans b1, ⟨fun _ _ => rfl, fun i hi => ?_, fun i hi id => ?_, fun i hi j hj ctx => ?_⟩, fun g hgn r hr => ?_, fun i hi => Or.inl ?_, fun i => ?_,
        fun g hgn => ?_⟩
      · rw [b2.other i fun r hr he => by have := hg.lt n hnG r hr; omega]; exact t2.done i hi
      · by_cases hmem : ∃ r < P, f n r = i
        · obtain ⟨r, hr, rfl⟩ := hmem
          rw [(b2.loc r hr).req, T2.req r hr]; rfl
        · rw [b2.other i fun r hr he => hmem ⟨r, hr, he⟩]; exact t2.req i hi id
      · -- messages in transit
        have same : ∀ i < Q, ∀ j < Q, (∃ r < P, f n r = i) → (¬ ∃ r < P, f n r = j) → (B i).loc.sent (j, ctx) = (t i).loc.sent (j, ctx) ∧
            (B i).loc.rcvd (j, ctx) = (t i).loc.rcvd (j, ctx) := by
          intro i hi j hj ⟨r, hr, hri⟩ hnj
          subst hri
          refine b2.keep r hr (j, ctx) fun j' c he => ?_
          simp only [Prod.mk.injEq] at he
          by_cases hj' : j' < P
          · exact hnj ⟨j', hj', he.1.symm⟩
          · have := hg.ge n j' (by omega)
            omega
        have oth : ∀ i, (¬ ∃ r < P, f n r = i) → B i = t i := fun i hi => b2.other i fun r hr he => hi ⟨r, hr, he⟩
        by_cases h1 : ∃ r < P, f n r = i
        · by_cases h2 : ∃ r < P, f n r = j
          · obtain ⟨r, hr, rfl⟩ := h1
            obtain ⟨r', hr', rfl⟩ := h2
            by_cases hctx : ∃ c, cx c = ctx
            · obtain ⟨c, rfl⟩ := hctx
              simp only
              rw [(b2.chan r).1 r' c, (b2.chan r').2 r c]
              exact T2.bal r hr r' hr' c
            · have e1 := (b2.keep r hr (f n r', ctx) fun j c he => hctx ⟨c, by simp only [Prod.mk.injEq] at he; exact he.2.symm⟩).1
              have e2 := (b2.keep r' hr' (f n r, ctx) fun j c he => hctx ⟨c, by simp only [Prod.mk.injEq] at he; exact he.2.symm⟩).2
              simp only
              rw [e1, e2]
              exact t2.bal _ hi _ hj ctx
          · simp only
            rw [(same i hi j hj h1 h2).1, oth j h2]
            exact t2.bal i hi j hj ctx
        · by_cases h2 : ∃ r < P, f n r = j
          · simp only
            rw [(same j hj i hi h2 h1).2, oth i h1]
            exact t2.bal i hi j hj ctx
          · simp only
            rw [oth i h1, oth j h2]
            exact t2.bal i hi j hj ctx
      · rcases Nat.lt_succ_iff_lt_or_eq.1 hgn with h | rfl
        · rw [b2.other _ fun r' hr' he => by have := (hg.disj n hnG r' hr' g (by omega) r hr he).1; omega]
          exact t3 g h r hr
        · exact hBp r hr
      · rw [b2.other i fun r hr => hi n (by omega) r hr]
        exact (t4 i fun g hgn => hi g (by omega)).resolve_right id
      · by_cases hmem : ∃ r < P, f n r = i
        · obtain ⟨r, hr, rfl⟩ := hmem
          rw [(b2.loc r hr).size, T3, ← t5]
        · rw [b2.other i fun r hr he => hmem ⟨r, hr, he⟩, t5]
      · rcases Nat.lt_succ_iff_lt_or_eq.1 hgn with h | rfl
        · refine hR g _ _ (fun r hr => ?_) (t6 g h)
          rw [b2.other _ fun r' hr' he => by have := (hg.disj n hnG r' hr' g (by omega) r hr he).1; omega]
        · exact hR g _ _ (fun r hr => ((b2.loc r hr).mem).symm) T4
  obtain ⟨t, t1, t2, t3, t4, t5, t6⟩ := key G le_rfl
  refine ⟨t, t1, ⟨fun i hi => ?_, t2.done, t2.req, t2.bal⟩, t5, t6⟩
  obtain ⟨g, hg', r, hr, rfl⟩ := hg.cover i hi
  exact t3 g hg' r hr

end Fftwpp.Net
