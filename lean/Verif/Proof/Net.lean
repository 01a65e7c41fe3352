import Verif.Model.Net
import Mathlib.Data.List.Infix

/-!
# Confluence of the message-passing semantics, and one canonical run is enough
-/

namespace Fftwpp.Net
variable {V α β : Type}

/-- The shared part of the state only grows. -/
def Local.Le (σ τ : Local V) : Prop := (∀ c, σ.sent c <+: τ.sent c) ∧ ∀ c, σ.rcvd c ≤ τ.rcvd c

theorem Local.Le.refl (σ : Local V) : σ.Le σ := ⟨fun _ => List.prefix_rfl, fun _ => le_rfl⟩

theorem Local.Le.trans {a b c : Local V} (h : a.Le b) (h' : b.Le c) : a.Le c :=
  ⟨fun x => (h.1 x).trans (h'.1 x), fun x => (h.2 x).trans (h'.2 x)⟩

theorem Op.exec_le {e : Eager} {i : ℕ} {env : ℕ → Local V} {σ τ : Local V} {o : Op V} (h : o.exec e i env σ = some τ) :
    σ.Le τ := by
  cases o with
  | moves l => simp only [Op.exec] at h; split_ifs at h; cases h; exact Local.Le.refl σ
  | shuffle l => simp only [Op.exec] at h; split_ifs at h; cases h; exact Local.Le.refl σ
  | store a v => simp only [Op.exec] at h; split_ifs at h; cases h; exact Local.Le.refl σ
  | alloc b n => simp only [Op.exec] at h; split_ifs at h; cases h; exact Local.Le.refl σ
  | free b => simp only [Op.exec] at h; split_ifs at h; cases h; exact Local.Le.refl σ
  | comp c =>
    simp only [Op.exec] at h
    split_ifs at h
    obtain ⟨m, _, rfl⟩ := Option.map_eq_some_iff.1 h
    exact Local.Le.refl σ
  | isend id ctx dst src n hold =>
    simp only [Op.exec] at h
    split_ifs at h
    all_goals
      cases h
      refine ⟨fun c => ?_, fun _ => le_rfl⟩
      simp only [Function.update_apply]
      split_ifs with hc
      · subst hc; exact List.prefix_append _ _
      · exact List.prefix_rfl
  | irecv id ctx src dst n =>
    simp only [Op.exec] at h
    split_ifs at h
    cases h
    refine ⟨fun _ => List.prefix_rfl, fun c => ?_⟩
    simp only [Function.update_apply]
    split_ifs with hc
    · subst hc; omega
    · exact le_rfl
  | wait id =>
    simp only [Op.exec] at h
    split at h
    · cases h; exact Local.Le.refl σ
    · split_ifs at h
      cases h
      exact ⟨fun _ => List.prefix_rfl, fun _ => le_rfl⟩
    · split at h
      · cases h
      · split_ifs at h
        cases h
        exact ⟨fun _ => List.prefix_rfl, fun _ => le_rfl⟩

theorem Op.exec_mono {e : Eager} {i : ℕ} {env env' : ℕ → Local V} {σ τ : Local V} {o : Op V} (h : o.exec e i env σ = some τ)
    (hle : ∀ j, (env j).Le (env' j)) : o.exec e i env' σ = some τ := by
  cases o with
  | moves l => exact h
  | shuffle l => exact h
  | store a v => exact h
  | alloc b n => exact h
  | free b => exact h
  | comp c => exact h
  | isend id ctx dst src n hold => exact h
  | irecv id ctx src dst n => exact h
  | wait id =>
    simp only [Op.exec] at h ⊢
    split at h
    · exact h
    · rename_i peer ctx k bf rg hq
      split_ifs at h with hb
      have : bf = true ∨ k < (env' peer).rcvd (i, ctx) := hb.imp (fun x => x) fun x => lt_of_lt_of_le x ((hle peer).2 _)
      simp only [this, if_true]
      exact h
    · rename_i peer ctx k rg hq
      split at h
      · cases h
      · rename_i data hd
        have := (hle peer).1 (i, ctx)
        obtain ⟨t, ht⟩ := this
        have hd' : ((env' peer).sent (i, ctx))[k]? = some data := by
          rw [← ht]
          rw [List.getElem?_append_left (List.getElem?_eq_some_iff.1 hd).1]
          exact hd
        simp only [hd']
        exact h

theorem Proc.step_le {e : Eager} {i : ℕ} {env : ℕ → Local V} {p q : Proc V} (h : p.step e i env = some q) : p.loc.Le q.loc := by
  unfold Proc.step at h
  split at h
  · cases h
  · cases h
  · obtain ⟨σ, hσ, rfl⟩ := Option.map_eq_some_iff.1 h
    exact Op.exec_le hσ
  · split_ifs at h
    cases h
    exact Local.Le.refl _

theorem Proc.step_mono {e : Eager} {i : ℕ} {env env' : ℕ → Local V} {p q : Proc V} (h : p.step e i env = some q)
    (hle : ∀ j, (env j).Le (env' j)) : p.step e i env' = some q := by
  unfold Proc.step at h ⊢
  split at h
  · cases h
  · cases h
  · obtain ⟨σ, hσ, rfl⟩ := Option.map_eq_some_iff.1 h
    simp only [Op.exec_mono hσ hle, Option.map_some]
  · simpa using h

theorem le_update {s : St V} {i : ℕ} {p : Proc V} (h : (s i).loc.Le p.loc) (j : ℕ) :
    (s j).loc.Le ((Function.update s i p) j).loc := by
  by_cases hj : j = i
  · subst hj; simpa using h
  · rw [Function.update_of_ne hj]; exact Local.Le.refl _

/-- Two different steps commute. -/
theorem diamond {e : Eager} {s t u : St V} (h1 : Step e s t) (h2 : Step e s u) (hne : t ≠ u) : ∃ v, Step e t v ∧ Step e u v := by
  obtain ⟨i, p, hp, rfl⟩ := h1
  obtain ⟨j, q, hq, rfl⟩ := h2
  have hij : i ≠ j := by
    rintro rfl
    rw [hp] at hq
    cases hq
    exact hne rfl
  refine ⟨Function.update (Function.update s i p) j q, ⟨j, q, ?_, rfl⟩, ⟨i, p, ?_, (Function.update_comm hij _ _ _)⟩⟩
  · rw [Function.update_of_ne hij.symm]
    exact Proc.step_mono hq fun k => le_update (Proc.step_le hp) k
  · rw [Function.update_of_ne hij]
    exact Proc.step_mono hp fun k => le_update (Proc.step_le hq) k

theorem StepN.cast {e : Eager} {k k' : ℕ} {s t : St V} (h : StepN e k s t) (hk : k = k') : StepN e k' s t := hk ▸ h

theorem StepN.append {e : Eager} {k l : ℕ} {s t u : St V} (h : StepN e k s t) (h' : StepN e l t u) : StepN e (k + l) s u := by
  induction h with
  | zero s => simpa using h'
  | succ h1 _ ih => exact (StepN.succ h1 (ih h')).cast (by omega)

/-- After a first step every terminating run can be rejoined, with the same total length. -/
theorem rejoin {e : Eager} {n : ℕ} : ∀ {s f t : St V}, StepN e n s f → (∀ u, ¬ Step e f u) → Step e s t →
    ∃ m, n = m + 1 ∧ StepN e m t f := by
  induction n with
  | zero =>
    intro s f t h hf hst
    cases h
    exact absurd hst (hf t)
  | succ n ih =>
    intro s f t h hf hst
    cases h with
    | succ hsu huf =>
      rename_i u
      by_cases htu : t = u
      · subst htu; exact ⟨n, rfl, huf⟩
      · obtain ⟨v, htv, huv⟩ := diamond hst hsu htu
        obtain ⟨m, hm, hvf⟩ := ih huf hf huv
        exact ⟨n, rfl, hm ▸ StepN.succ htv hvf⟩

/-- Any run can be continued to the end of a terminating run. -/
theorem rejoinN {e : Eager} {k : ℕ} : ∀ {n : ℕ} {s f t : St V}, StepN e n s f → (∀ u, ¬ Step e f u) → StepN e k s t →
    ∃ m, n = k + m ∧ StepN e m t f := by
  induction k with
  | zero => intro n s f t h _ h'; cases h'; exact ⟨n, by omega, h⟩
  | succ k ih =>
    intro n s f t h hf h'
    cases h' with
    | succ hsu hut =>
      obtain ⟨m, rfl, hm⟩ := rejoin h hf hsu
      obtain ⟨m', rfl, hm'⟩ := ih hm hf hut
      exact ⟨m', by omega, hm'⟩

/-- If one run ends (with no step possible), then all runs are finite and all complete runs end there. -/
theorem allRuns_of_run {e : Eager} {n : ℕ} {s f : St V} {Q : St V → Prop} (h : StepN e n s f) (hf : ∀ u, ¬ Step e f u) (hQ : Q f) :
    AllRuns e s Q := by
  refine ⟨⟨n, fun k t hk => ?_⟩, fun k t hk ht => ?_⟩
  · obtain ⟨m, hm, _⟩ := rejoinN h hf hk
    omega
  · obtain ⟨m, _, hm⟩ := rejoinN h hf hk
    cases hm with
    | zero => exact hQ
    | succ h1 _ => exact absurd h1 (ht _)

/-- The transitive closure. -/
def Steps (e : Eager) (s t : St V) : Prop := ∃ n, StepN e n s t

theorem Steps.refl (e : Eager) (s : St V) : Steps e s s := ⟨0, .zero s⟩

theorem Steps.trans {e : Eager} {s t u : St V} (h : Steps e s t) (h' : Steps e t u) : Steps e s u := by
  obtain ⟨n, hn⟩ := h
  obtain ⟨m, hm⟩ := h'
  exact ⟨n + m, hn.append hm⟩

theorem Steps.one {e : Eager} {s t : St V} (h : Step e s t) : Steps e s t := ⟨1, .succ h (.zero t)⟩

/-- Running a program fragment to its end, the other processes standing still. -/
noncomputable def Prog.eval (e : Eager) (i : ℕ) (env : ℕ → Local V) : Prog V α → Local V → Option (α × Local V)
  | .ret a, σ => some (a, σ)
  | .fail, _ => none
  | .op o k, σ => (o.exec e i env σ).bind fun τ => k.eval e i env τ
  | .load a k, σ => open Classical in if σ.readable a then (k (σ.mem a)).eval e i env σ else none

theorem Prog.eval_bind {e : Eager} {i : ℕ} {env : ℕ → Local V} {f : α → Prog V β} : ∀ {x : Prog V α} {σ : Local V},
    (x.bind f).eval e i env σ = (x.eval e i env σ).bind fun r => (f r.1).eval e i env r.2 := by
  intro x
  induction x with
  | ret a => intro σ; rfl
  | fail => intro σ; rfl
  | op o k ih =>
    intro σ
    simp only [Prog.bind, Prog.eval]
    cases o.exec e i env σ with
    | none => rfl
    | some τ => exact ih
  | load a k ih =>
    intro σ
    simp only [Prog.bind, Prog.eval]
    split_ifs
    · exact ih _
    · rfl

theorem Prog.eval_le {e : Eager} {i : ℕ} {env : ℕ → Local V} : ∀ {x : Prog V α} {σ τ : Local V} {a : α},
    x.eval e i env σ = some (a, τ) → σ.Le τ := by
  intro x
  induction x with
  | ret a => intro σ τ b h; cases h; exact Local.Le.refl _
  | fail => intro σ τ b h; cases h
  | op o k ih =>
    intro σ τ b h
    obtain ⟨ρ, hρ, h'⟩ := Option.bind_eq_some_iff.1 h
    exact (Op.exec_le hρ).trans (ih h')
  | load a k ih =>
    intro σ τ b h
    simp only [Prog.eval] at h
    split_ifs at h
    exact ih _ h

theorem Prog.eval_mono {e : Eager} {i : ℕ} {env env' : ℕ → Local V} (hle : ∀ j, (env j).Le (env' j)) :
    ∀ {x : Prog V α} {σ τ : Local V} {a : α}, x.eval e i env σ = some (a, τ) → x.eval e i env' σ = some (a, τ) := by
  intro x
  induction x with
  | ret a => intro σ τ b h; exact h
  | fail => intro σ τ b h; exact h
  | op o k ih =>
    intro σ τ b h
    obtain ⟨ρ, hρ, h'⟩ := Option.bind_eq_some_iff.1 h
    simp only [Prog.eval, Op.exec_mono hρ hle, Option.bind_some]
    exact ih h'
  | load a k ih =>
    intro σ τ b h
    simp only [Prog.eval] at h ⊢
    split_ifs at h ⊢
    exact ih _ h

/-- Running a fragment of the program of one process. -/
theorem steps_eval {e : Eager} {i : ℕ} {f : α → Prog V Unit} : ∀ {x : Prog V α} {s : St V} {env : ℕ → Local V} {τ : Local V} {a : α},
    (s i).prog = x.bind f → (∀ j, (env j).Le (s j).loc) → x.eval e i env (s i).loc = some (a, τ) →
    Steps e s (Function.update s i ⟨f a, τ⟩) := by
  intro x
  induction x with
  | ret a =>
    intro s env τ b hp _ h
    cases h
    have : Function.update s i ⟨f a, (s i).loc⟩ = s := by
      rw [Function.update_eq_self_iff]
      show _ = s i
      rw [show f a = (s i).prog from hp.symm]
    rw [this]
    exact Steps.refl e s
  | fail => intro s env τ b _ _ h; cases h
  | op o k ih =>
    intro s env τ b hp hle h
    obtain ⟨ρ, hρ, h'⟩ := Option.bind_eq_some_iff.1 h
    have hs : Step e s (Function.update s i ⟨k.bind f, ρ⟩) := by
      refine ⟨i, _, ?_, rfl⟩
      simp only [Proc.step, hp, Prog.bind, Op.exec_mono hρ hle, Option.map_some]
    refine (Steps.one hs).trans ?_
    have := ih (s := Function.update s i ⟨k.bind f, ρ⟩) (env := env) (τ := τ) (a := b) (by simp)
      (fun j => (hle j).trans (le_update (Op.exec_le hρ) j)) (by simpa using h')
    simpa using this
  | load a k ih =>
    intro s env τ b hp hle h
    simp only [Prog.eval] at h
    split_ifs at h with hr
    have hs : Step e s (Function.update s i ⟨(k ((s i).loc.mem a)).bind f, (s i).loc⟩) := by
      refine ⟨i, _, ?_, rfl⟩
      simp only [Proc.step, hp, Prog.bind, hr, if_true]
    refine (Steps.one hs).trans ?_
    have := ih ((s i).loc.mem a) (s := Function.update s i ⟨(k ((s i).loc.mem a)).bind f, (s i).loc⟩) (env := env) (τ := τ) (a := b) (by simp)
      (fun j => (hle j).trans (le_update (s := s) (p := ⟨(k ((s i).loc.mem a)).bind f, (s i).loc⟩) (Local.Le.refl _) j)) (by simpa using h)
    simpa using this

/-- A phase: each of the first `P` processes runs a fragment of its program that depends only on what the others had done before
the phase. -/
theorem phase {e : Eager} (P : ℕ) {s t : St V} (ht : ∀ i, P ≤ i → t i = s i)
    (h : ∀ i < P, ∃ (α : Type) (x : Prog V α) (f : α → Prog V Unit) (a : α), (s i).prog = x.bind f ∧ (t i).prog = f a ∧
      x.eval e i (fun j => (s j).loc) (s i).loc = some (a, (t i).loc)) : Steps e s t := by
  have key : ∀ n ≤ P, Steps e s (fun i => if i < n then t i else s i) := by
    intro n
    induction n with
    | zero => intro _; simpa using Steps.refl e s
    | succ n ih =>
      intro hn
      refine (ih (by omega)).trans ?_
      obtain ⟨α, x, f, a, h1, h2, h3⟩ := h n (by omega)
      have := steps_eval (e := e) (i := n) (f := f) (x := x) (s := fun i => if i < n then t i else s i)
        (env := fun j => (s j).loc) (τ := (t n).loc) (a := a) (by simpa using h1) (by
          intro j
          by_cases hj : j < n
          · simp only [hj, if_true]
            obtain ⟨_, _, _, _, _, _, h3⟩ := h j (by omega)
            exact Prog.eval_le h3
          · simp only [hj, if_false]; exact Local.Le.refl _) (by simpa using h3)
      have he : (Function.update (fun i => if i < n then t i else s i) n ⟨f a, (t n).loc⟩) = (fun i => if i < n + 1 then t i else s i) := by
        funext j
        by_cases hj : j = n
        · subst hj; rw [Function.update_self, ← h2]; simp
        · rw [Function.update_of_ne hj]
          by_cases hj2 : j < n
          · simp [hj2, show j < n + 1 by omega]
          · simp [hj2, show ¬ j < n + 1 by omega]
      rw [he] at this
      exact this
  have := key P le_rfl
  have he : (fun i => if i < P then t i else s i) = t := by
    funext i
    by_cases hi : i < P
    · simp [hi]
    · simp [hi, ht i (by omega)]
  rwa [he] at this

/-- A phase in which one process runs. -/
theorem phase1 {e : Eager} {s : St V} (i : ℕ) {x : Prog V α} {f : α → Prog V Unit} {a : α} {τ : Local V}
    (hp : (s i).prog = x.bind f) (h : x.eval e i (fun j => (s j).loc) (s i).loc = some (a, τ)) :
    Steps e s (Function.update s i ⟨f a, τ⟩) :=
  steps_eval hp (fun _ => Local.Le.refl _) h

/-- No process can move when all are finished. -/
theorem no_step {e : Eager} {s : St V} (h : ∀ i, (s i).prog = .ret ()) (u : St V) : ¬ Step e s u := by
  rintro ⟨i, p, hp, _⟩
  simp [Proc.step, h i] at hp

/-- The conclusion used below: a run to a finished state is enough. -/
theorem allRuns {e : Eager} {s f : St V} {Q : St V → Prop} (h : Steps e s f) (hf : ∀ i, (f i).prog = .ret ()) (hQ : Q f) :
    AllRuns e s Q := by
  obtain ⟨n, hn⟩ := h
  exact allRuns_of_run hn (no_step hf) hQ

end Fftwpp.Net
