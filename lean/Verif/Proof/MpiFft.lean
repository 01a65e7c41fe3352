import Verif.Model.MpiFft
import Verif.Props.Transpose
import Verif.Spec.DftN

/-!
# Local transforms in the message-passing model
-/

namespace Fftwpp.Net
open Finset
variable {V : Type}

theorem loads_eval {β : Type} {e : Eager} {i : ℕ} {env : ℕ → Local V} {σ : Local V} {k : (Loc → V) → Prog V β} :
    ∀ {l : List Loc} {g : Loc → V}, (∀ a ∈ l, σ.readable a) →
    ∃ g', (Prog.loads l g k).eval e i env σ = (k g').eval e i env σ ∧ (∀ a ∈ l, g' a = σ.mem a) ∧ ∀ a, a ∉ l → g' a = g a := by
  intro l
  induction l with
  | nil => intro g _; exact ⟨g, rfl, by simp, fun _ _ => rfl⟩
  | cons a t ih =>
    intro g h
    obtain ⟨g', h1, h2, h3⟩ := ih (g := fun b => if b = a then σ.mem a else g b) fun b hb => h b (List.mem_cons_of_mem _ hb)
    refine ⟨g', ?_, ?_, ?_⟩
    · simp only [Prog.loads, Prog.eval]
      rw [if_pos (h a List.mem_cons_self)]
      exact h1
    · intro b hb
      by_cases hbt : b ∈ t
      · exact h2 b hbt
      · have : b = a := by simpa [hbt] using hb
        subst this
        rw [h3 b hbt, if_pos rfl]
    · intro b hb
      rw [h3 b fun h => hb (List.mem_cons_of_mem _ h), if_neg fun h => hb (by rw [h]; exact List.mem_cons_self)]

theorem stores_eval {e : Eager} {i : ℕ} {env : ℕ → Local V} : ∀ {l : List (Loc × V)} {σ : Local V}, (∀ id, σ.req id = none) →
    (∀ x ∈ l, σ.inBounds x.1) → (l.map (·.1)).Nodup →
    ∃ m, (Prog.calls (l.map fun x => Op.store x.1 x.2)).eval e i env σ = some ((), { σ with mem := m }) ∧ (∀ x ∈ l, m x.1 = x.2) ∧
      ∀ a, (∀ x ∈ l, a ≠ x.1) → m a = σ.mem a := by
  intro l
  induction l with
  | nil => intro σ _ _ _; exact ⟨σ.mem, rfl, by simp, fun _ _ => rfl⟩
  | cons y t ih =>
    intro σ hr hb hn
    rw [List.map_cons, List.nodup_cons] at hn
    obtain ⟨m, h1, h2, h3⟩ := ih (σ := { σ with mem := fun b => if b = y.1 then y.2 else σ.mem b }) hr
      (fun x hx => hb x (List.mem_cons_of_mem _ hx)) hn.2
    have hne : ∀ x ∈ t, y.1 ≠ x.1 := fun x hx h => hn.1 (List.mem_map.2 ⟨x, hx, h.symm⟩)
    refine ⟨m, ?_, ?_, ?_⟩
    · rw [List.map_cons, Prog.calls, Prog.eval_bind]
      have : (Prog.call (Op.store y.1 y.2)).eval e i env σ = some ((), { σ with mem := fun b => if b = y.1 then y.2 else σ.mem b }) := by
        simp only [Prog.call, Prog.eval, Op.exec]
        rw [if_pos ⟨hb y List.mem_cons_self, fun id q hq => by rw [hr id] at hq; cases hq⟩]
        rfl
      rw [this]
      exact h1
    · intro x hx
      rcases List.mem_cons.1 hx with rfl | hx
      · rw [h3 _ hne]; simp
      · exact h2 x hx
    · intro a ha
      rw [h3 a fun x hx => ha x (List.mem_cons_of_mem _ hx)]
      simp [ha y List.mem_cons_self]

theorem apply_ok [Inhabited V] {e : Eager} {i : ℕ} {env : ℕ → Local V} {σ : Local V} (hr : ∀ id, σ.req id = none) {rd : List Loc}
    {wr : List (Loc × ((Loc → V) → V))} (hrd : ∀ a ∈ rd, σ.inBounds a) (hwr : ∀ x ∈ wr, σ.inBounds x.1) (hn : (wr.map (·.1)).Nodup) :
    ∃ m g, (Prog.apply rd wr).eval e i env σ = some ((), { σ with mem := m }) ∧ (∀ a ∈ rd, g a = σ.mem a) ∧ (∀ x ∈ wr, m x.1 = x.2 g) ∧
      ∀ a, (∀ x ∈ wr, a ≠ x.1) → m a = σ.mem a := by
  obtain ⟨g, h1, h2, _⟩ := loads_eval (e := e) (i := i) (env := env) (σ := σ) (k := fun g => Prog.calls (wr.map fun x => Op.store x.1 (x.2 g)))
    (l := rd) (g := fun _ => default) fun a ha => ⟨hrd a ha, fun id q hq => by rw [hr id] at hq; cases hq⟩
  obtain ⟨m, h4, h5, h6⟩ := stores_eval (e := e) (i := i) (env := env) (l := wr.map fun x => (x.1, x.2 g)) (σ := σ) hr
    (by
      intro x hx
      obtain ⟨y, hy, rfl⟩ := List.mem_map.1 hx
      exact hwr y hy)
    (by rw [List.map_map]; exact hn)
  refine ⟨m, g, ?_, h2, fun x hx => h5 (x.1, x.2 g) (List.mem_map.2 ⟨x, hx, rfl⟩), fun a ha => h6 a ?_⟩
  · unfold Prog.apply
    rw [h1]
    rw [List.map_map] at h4
    exact h4
  · intro x hx
    obtain ⟨y, hy, rfl⟩ := List.mem_map.1 hx
    exact ha y hy

/-- A batched plan. -/
theorem plan_ok {e : Eager} {i : ℕ} {env : ℕ → Local ℂ} {σ : Local ℂ} (hr : ∀ id, σ.req id = none) {pl : BPlan} {src dst : Loc}
    (hs : ∀ k < pl.howmany, ∀ j < pl.n, σ.inBounds (src + (k * pl.idist + j * pl.istride)))
    (hd : ∀ k < pl.howmany, ∀ j < pl.n, σ.inBounds (dst + (k * pl.odist + j * pl.ostride)))
    (hinj : ∀ k < pl.howmany, ∀ j < pl.n, ∀ k' < pl.howmany, ∀ j' < pl.n, k * pl.odist + j * pl.ostride = k' * pl.odist + j' * pl.ostride →
      k = k' ∧ j = j') :
    ∃ m, (planExec pl src dst).eval e i env σ = some ((), { σ with mem := m }) ∧
      (∀ k < pl.howmany, ∀ j < pl.n, m (dst + (k * pl.odist + j * pl.ostride)) =
        ∑ t ∈ range pl.n, σ.mem (src + (k * pl.idist + t * pl.istride)) * w pl.n (pl.sign * t * j)) ∧
      ∀ a, (∀ k < pl.howmany, ∀ j < pl.n, a ≠ dst + (k * pl.odist + j * pl.ostride)) → m a = σ.mem a := by
  have hmem : ∀ x : ℕ × ℕ, x ∈ (List.range pl.howmany ×ˢ List.range pl.n) ↔ x.1 < pl.howmany ∧ x.2 < pl.n := by
    intro x
    rw [show x = (x.1, x.2) from rfl, List.mem_product, List.mem_range, List.mem_range]
  obtain ⟨m, g, h1, h2, h3, h4⟩ := apply_ok (e := e) (i := i) (env := env) hr
    (rd := (List.range pl.howmany ×ˢ List.range pl.n).map fun x => src + (x.1 * pl.idist + x.2 * pl.istride))
    (wr := (List.range pl.howmany ×ˢ List.range pl.n).map fun x => (dst + (x.1 * pl.odist + x.2 * pl.ostride), fun g =>
      ∑ j ∈ Finset.range pl.n, g (src + (x.1 * pl.idist + j * pl.istride)) * w pl.n (pl.sign * j * x.2)))
    (by
      intro a ha
      obtain ⟨x, hx, rfl⟩ := List.mem_map.1 ha
      exact hs _ ((hmem x).1 hx).1 _ ((hmem x).1 hx).2)
    (by
      intro a ha
      obtain ⟨x, hx, rfl⟩ := List.mem_map.1 ha
      exact hd _ ((hmem x).1 hx).1 _ ((hmem x).1 hx).2)
    (by
      rw [List.map_map]
      refine List.Nodup.map_on ?_ (List.nodup_range.product List.nodup_range)
      intro x hx y hy hxy
      have := congrArg Loc.off hxy
      simp only [Function.comp, Loc.add_off, Nat.add_left_cancel_iff] at this
      obtain ⟨a1, a2⟩ := hinj _ ((hmem x).1 hx).1 _ ((hmem x).1 hx).2 _ ((hmem y).1 hy).1 _ ((hmem y).1 hy).2 this
      exact Prod.ext a1 a2)
  refine ⟨m, h1, ?_, ?_⟩
  · intro k hk j hj
    have := h3 _ (List.mem_map.2 ⟨(k, j), (hmem (k, j)).2 ⟨hk, hj⟩, rfl⟩)
    simp only at this
    rw [this]
    refine sum_congr rfl fun t ht => ?_
    rw [h2 _ (List.mem_map.2 ⟨(k, t), (hmem (k, t)).2 ⟨hk, mem_range.1 ht⟩, rfl⟩)]
  · intro a ha
    refine h4 a fun x hx => ?_
    obtain ⟨y, hy, rfl⟩ := List.mem_map.1 hx
    exact ha _ ((hmem y).1 hy).1 _ ((hmem y).1 hy).2

/-- `M` contiguous vectors. -/
theorem rows_ok {e : Eager} {i : ℕ} {env : ℕ → Local ℂ} {σ : Local ℂ} (hr : ∀ id, σ.req id = none) {n M : ℕ} {sign : ℤ} {ip : Bool} {src dst : Loc}
    (hip : (ip = true) ↔ src = dst) (hs : src.off + M * n ≤ σ.size src.buf) (hd : dst.off + M * n ≤ σ.size dst.buf) :
    ∃ m, ((Mfft.new n sign M 1 n ip).fft src dst).eval e i env σ = some ((), { σ with mem := m }) ∧
      (∀ k < M, ∀ j < n, m (dst + (k * n + j)) = ∑ t ∈ range n, σ.mem (src + (k * n + t)) * w n (sign * t * j)) ∧
      ∀ a, ¬ (Region.mk dst (M * n)).has a → m a = σ.mem a := by
  have hD : Dist n 1 n = n := by simp [Dist]
  have hpl : (Mfft.new n sign M 1 n ip).pl = ⟨n, sign, M, 1, 1, n, n⟩ := by
    simp only [Mfft.new, MFft.new, hD]
  obtain ⟨m, h1, h2, h3⟩ := plan_ok (e := e) (i := i) (env := env) hr (pl := ⟨n, sign, M, 1, 1, n, n⟩) (src := src) (dst := dst)
    (fun k hk j hj => inB hs (by rw [Nat.mul_one]; exact rad_lt hj hk)) (fun k hk j hj => inB hd (by rw [Nat.mul_one]; exact rad_lt hj hk))
    (by
      intro k hk j hj k' hk' j' hj' he
      simp only [Nat.mul_one] at he hj hj'
      exact rad_inj hj hj' he)
  refine ⟨m, ?_, ?_, ?_⟩
  · unfold Mfft.fft
    rw [if_pos (show ((Mfft.new n sign M 1 n ip).inplace = true) ↔ src = dst from hip), hpl]
    exact h1
  · intro k hk j hj
    have := h2 k hk j hj
    simpa only [Nat.mul_one] using this
  · intro a ha
    refine h3 a fun k hk j hj he => ha (region_has.2 ⟨k * n + j, rad_lt hj hk, ?_⟩)
    simpa only [Nat.mul_one] using he

/-- `M` interleaved vectors. -/
theorem cols_ok {e : Eager} {i : ℕ} {env : ℕ → Local ℂ} {σ : Local ℂ} (hr : ∀ id, σ.req id = none) {n M : ℕ} {sign : ℤ} {ip : Bool} {src dst : Loc}
    (hip : (ip = true) ↔ src = dst) (hs : src.off + n * M ≤ σ.size src.buf) (hd : dst.off + n * M ≤ σ.size dst.buf) :
    ∃ m, ((Mfft.new n sign M M 1 ip).fft src dst).eval e i env σ = some ((), { σ with mem := m }) ∧
      (∀ k < M, ∀ j < n, m (dst + (j * M + k)) = ∑ t ∈ range n, σ.mem (src + (t * M + k)) * w n (sign * t * j)) ∧
      ∀ a, ¬ (Region.mk dst (n * M)).has a → m a = σ.mem a := by
  have hD : Dist n M 1 = 1 := by simp [Dist]
  have hpl : (Mfft.new n sign M M 1 ip).pl = ⟨n, sign, M, M, M, 1, 1⟩ := by
    simp only [Mfft.new, MFft.new, hD]
  obtain ⟨m, h1, h2, h3⟩ := plan_ok (e := e) (i := i) (env := env) hr (pl := ⟨n, sign, M, M, M, 1, 1⟩) (src := src) (dst := dst)
    (fun k hk j hj => inB hs (by rw [Nat.mul_one, Nat.add_comm]; exact rad_lt hk hj))
    (fun k hk j hj => inB hd (by rw [Nat.mul_one, Nat.add_comm]; exact rad_lt hk hj))
    (by
      intro k hk j hj k' hk' j' hj' he
      simp only [Nat.mul_one] at he hk hk'
      rw [Nat.add_comm k, Nat.add_comm k'] at he
      exact (rad_inj hk hk' he).symm)
  refine ⟨m, ?_, ?_, ?_⟩
  · unfold Mfft.fft
    rw [if_pos (show ((Mfft.new n sign M M 1 ip).inplace = true) ↔ src = dst from hip), hpl]
    exact h1
  · intro k hk j hj
    have := h2 k hk j hj
    simp only [Nat.mul_one] at this
    rw [Nat.add_comm (j * M), this]
    refine sum_congr rfl fun t _ => ?_
    rw [Nat.add_comm k]
  · intro a ha
    refine h3 a fun k hk j hj he => ha (region_has.2 ⟨j * M + k, rad_lt hk hj, ?_⟩)
    rw [he, Nat.mul_one, Nat.add_comm]

theorem normalizeP_ok {e : Eager} {i : ℕ} {env : ℕ → Local ℂ} {σ : Local ℂ} (hr : ∀ id, σ.req id = none) {half : ℕ} {norm : ℂ} {out : Loc}
    (hs : out.off + half ≤ σ.size out.buf) :
    ∃ m, (normalizeP half norm out).eval e i env σ = some ((), { σ with mem := m }) ∧ (∀ k < half, m (out + k) = σ.mem (out + k) * norm) ∧
      ∀ a, ¬ (Region.mk out half).has a → m a = σ.mem a := by
  obtain ⟨m, g, h1, h2, h3, h4⟩ := apply_ok (e := e) (i := i) (env := env) hr (rd := (List.range half).map fun i => out + i)
    (wr := (List.range half).map fun i => (out + i, fun g => g (out + i) * norm))
    (by
      intro a ha
      obtain ⟨x, hx, rfl⟩ := List.mem_map.1 ha
      exact inB hs (List.mem_range.1 hx))
    (by
      intro a ha
      obtain ⟨x, hx, rfl⟩ := List.mem_map.1 ha
      exact inB hs (List.mem_range.1 hx))
    (by
      rw [List.map_map]
      refine List.nodup_range.map fun a b hab => ?_
      simpa using congrArg Loc.off hab)
  refine ⟨m, h1, ?_, ?_⟩
  · intro k hk
    have := h3 _ (List.mem_map.2 ⟨k, List.mem_range.2 hk, rfl⟩)
    simp only at this
    rw [this, h2 _ (List.mem_map.2 ⟨k, List.mem_range.2 hk, rfl⟩)]
  · intro a ha
    refine h4 a fun x hx => ?_
    obtain ⟨y, hy, rfl⟩ := List.mem_map.1 hx
    exact fun he => ha (region_has.2 ⟨y, List.mem_range.1 hy, he⟩)

end Fftwpp.Net
