import Verif.Model.MpiRcfft
import Verif.Proof.MpiFft2
import Verif.Spec.RDft2

/-!
# Local transforms of real data in the message-passing model
-/

namespace Fftwpp.Net
open Finset

theorem cpart_zero (z : ℂ) : cpart z 0 = z.re := rfl
theorem cpart_one (z : ℂ) : cpart z 1 = z.im := rfl

theorem add_add (p : Loc) (a b : ℕ) : p + a + b = p + (a + b) := by
  ext <;> simp [Nat.add_assoc]

theorem cget_of {g : Loc → ℝ} {p : Loc} {a : ℕ} {z : ℂ} (h : ∀ c < 2, g (p + (a + c)) = cpart z c) : cget g (p + a) = z := by
  apply Complex.ext
  · have := h 0 (by omega)
    simpa [cget, cpart] using this
  · have := h 1 (by omega)
    simpa [cget, cpart, add_add] using this

theorem of_cget {g : Loc → ℝ} {p : Loc} {a : ℕ} {z : ℂ} (h : cget g (p + a) = z) {c : ℕ} (hc : c < 2) : g (p + (a + c)) = cpart z c := by
  subst h
  interval_cases c
  · simp [cget, cpart]
  · simp [cget, cpart, add_add]

/-- A batched plan of complex transforms. -/
theorem cplan_ok {e : Eager} {i : ℕ} {env : ℕ → Local ℝ} {σ : Local ℝ} (hr : ∀ id, σ.req id = none) {pl : BPlan} {src dst : Loc}
    (hs : ∀ k < pl.howmany, ∀ j < pl.n, ∀ c < 2, σ.inBounds (src + (2 * (k * pl.idist + j * pl.istride) + c)))
    (hd : ∀ k < pl.howmany, ∀ j < pl.n, ∀ c < 2, σ.inBounds (dst + (2 * (k * pl.odist + j * pl.ostride) + c)))
    (hinj : ∀ k < pl.howmany, ∀ j < pl.n, ∀ k' < pl.howmany, ∀ j' < pl.n, k * pl.odist + j * pl.ostride = k' * pl.odist + j' * pl.ostride →
      k = k' ∧ j = j') :
    ∃ m, (cplanExec pl src dst).eval e i env σ = some ((), { σ with mem := m }) ∧
      (∀ k < pl.howmany, ∀ j < pl.n, cget m (dst + 2 * (k * pl.odist + j * pl.ostride)) =
        ∑ t ∈ range pl.n, cget σ.mem (src + 2 * (k * pl.idist + t * pl.istride)) * w pl.n (pl.sign * t * j)) ∧
      ∀ a, (∀ k < pl.howmany, ∀ j < pl.n, ∀ c < 2, a ≠ dst + (2 * (k * pl.odist + j * pl.ostride) + c)) → m a = σ.mem a := by
  have hmem : ∀ x : ℕ × ℕ × ℕ, x ∈ (List.range pl.howmany ×ˢ List.range pl.n ×ˢ List.range 2) ↔ x.1 < pl.howmany ∧ x.2.1 < pl.n ∧ x.2.2 < 2 := by
    intro x
    rw [show x = (x.1, x.2.1, x.2.2) from rfl, List.mem_product, List.mem_product, List.mem_range, List.mem_range, List.mem_range]
  obtain ⟨m, g, h1, h2, h3, h4⟩ := apply_ok (e := e) (i := i) (env := env) hr
    (rd := (List.range pl.howmany ×ˢ List.range pl.n ×ˢ List.range 2).map fun x => src + (2 * (x.1 * pl.idist + x.2.1 * pl.istride) + x.2.2))
    (wr := (List.range pl.howmany ×ˢ List.range pl.n ×ˢ List.range 2).map fun x => (dst + (2 * (x.1 * pl.odist + x.2.1 * pl.ostride) + x.2.2), fun g =>
      cpart (∑ j ∈ Finset.range pl.n, cget g (src + 2 * (x.1 * pl.idist + j * pl.istride)) * w pl.n (pl.sign * j * x.2.1)) x.2.2))
    (by
      intro a ha
      obtain ⟨x, hx, rfl⟩ := List.mem_map.1 ha
      obtain ⟨h1, h2, h3⟩ := (hmem x).1 hx
      exact hs _ h1 _ h2 _ h3)
    (by
      intro a ha
      obtain ⟨x, hx, rfl⟩ := List.mem_map.1 ha
      obtain ⟨h1, h2, h3⟩ := (hmem x).1 hx
      exact hd _ h1 _ h2 _ h3)
    (by
      rw [List.map_map]
      refine List.Nodup.map_on ?_ (List.nodup_range.product (List.nodup_range.product List.nodup_range))
      intro x hx y hy hxy
      have := congrArg Loc.off hxy
      simp only [Function.comp, Loc.add_off, Nat.add_left_cancel_iff] at this
      obtain ⟨h1, h2, h3⟩ := (hmem x).1 hx
      obtain ⟨h1', h2', h3'⟩ := (hmem y).1 hy
      obtain ⟨a1, a2⟩ := hinj _ h1 _ h2 _ h1' _ h2' (by omega)
      refine Prod.ext a1 (Prod.ext a2 ?_)
      rw [a1, a2] at this
      omega)
  have hg : ∀ k < pl.howmany, ∀ t < pl.n, cget g (src + 2 * (k * pl.idist + t * pl.istride)) = cget σ.mem (src + 2 * (k * pl.idist + t * pl.istride)) := by
    intro k hk t ht
    refine cget_of fun c hc => ?_
    rw [h2 _ (List.mem_map.2 ⟨(k, t, c), (hmem (k, t, c)).2 ⟨hk, ht, hc⟩, rfl⟩)]
    exact of_cget rfl hc
  refine ⟨m, h1, ?_, ?_⟩
  · intro k hk j hj
    refine cget_of fun c hc => ?_
    have := h3 _ (List.mem_map.2 ⟨(k, j, c), (hmem (k, j, c)).2 ⟨hk, hj, hc⟩, rfl⟩)
    simp only at this
    rw [this]
    congr 1
    refine sum_congr rfl fun t ht => ?_
    rw [hg k hk t (mem_range.1 ht)]
  · intro a ha
    refine h4 a fun x hx => ?_
    obtain ⟨y, hy, rfl⟩ := List.mem_map.1 hx
    obtain ⟨h1, h2, h3⟩ := (hmem y).1 hy
    exact ha _ h1 _ h2 _ h3

theorem rad2_lt {k j c M n : ℕ} (hk : k < M) (hj : j < n) (hc : c < 2) : 2 * (j * M + k) + c < 2 * (n * M) := by
  have := rad_lt hk hj
  omega

/-- `M` interleaved complex vectors, in place. -/
theorem ccols_ok {e : Eager} {i : ℕ} {env : ℕ → Local ℝ} {σ : Local ℝ} (hr : ∀ id, σ.req id = none) {n M : ℕ} {sign : ℤ} {p : Loc}
    (hs : p.off + 2 * (n * M) ≤ σ.size p.buf) :
    ∃ m, ((Mfft.new n sign M M 1 true).cfft p p).eval e i env σ = some ((), { σ with mem := m }) ∧
      (∀ k < M, ∀ j < n, cget m (p + 2 * (j * M + k)) = ∑ t ∈ range n, cget σ.mem (p + 2 * (t * M + k)) * w n (sign * t * j)) ∧
      ∀ a, ¬ (Region.mk p (2 * (n * M))).has a → m a = σ.mem a := by
  have hD : Dist n M 1 = 1 := by simp [Dist]
  have hpl : (Mfft.new n sign M M 1 true).pl = ⟨n, sign, M, M, M, 1, 1⟩ := by
    simp only [Mfft.new, MFft.new, hD]
  have hb : ∀ k < M, ∀ j < n, ∀ c < 2, σ.inBounds (p + (2 * (k * 1 + j * M) + c)) := fun k hk j hj c hc =>
    inB hs (by rw [Nat.mul_one, Nat.add_comm k]; exact rad2_lt hk hj hc)
  obtain ⟨m, h1, h2, h3⟩ := cplan_ok (e := e) (i := i) (env := env) hr (pl := ⟨n, sign, M, M, M, 1, 1⟩) (src := p) (dst := p) hb hb
    (by
      intro k hk j hj k' hk' j' hj' he
      simp only [Nat.mul_one] at he hk hk'
      rw [Nat.add_comm k, Nat.add_comm k'] at he
      exact (rad_inj hk hk' he).symm)
  refine ⟨m, ?_, ?_, ?_⟩
  · unfold Mfft.cfft
    rw [if_pos (show ((Mfft.new n sign M M 1 true).inplace = true) ↔ p = p by simp [Mfft.new]), hpl]
    exact h1
  · intro k hk j hj
    have := h2 k hk j hj
    simp only [Nat.mul_one] at this
    rw [Nat.add_comm (j * M), this]
    refine sum_congr rfl fun t _ => ?_
    rw [Nat.add_comm k]
  · intro a ha
    refine h3 a fun k hk j hj c hc he => ha (region_has.2 ⟨2 * (j * M + k) + c, rad2_lt hk hj hc, ?_⟩)
    rw [he, Nat.mul_one, Nat.add_comm k]

namespace Mrc
variable {o : Mrc}

theorem mem_cwords (x : ℕ × ℕ × ℕ) : x ∈ o.cwords ↔ x.1 < o.howmany ∧ x.2.1 < o.n / 2 + 1 ∧ x.2.2 < 2 := by
  unfold cwords
  rw [show x = (x.1, x.2.1, x.2.2) from rfl, List.mem_product, List.mem_product, List.mem_range, List.mem_range, List.mem_range]

theorem mem_rwords (x : ℕ × ℕ) : x ∈ o.rwords ↔ x.1 < o.howmany ∧ x.2 < o.n := by
  unfold rwords
  rw [show x = (x.1, x.2) from rfl, List.mem_product, List.mem_range, List.mem_range]

/-- The distances the distributed transforms use. -/
structure Std (o : Mrc) : Prop where
  cdist : o.cdist = o.n / 2 + 1
  rdist : o.n ≤ o.rdist

theorem c_lt (h : o.Std) {x : ℕ × ℕ × ℕ} (hx : x ∈ o.cwords) : 2 * (x.1 * o.cdist + x.2.1) + x.2.2 < 2 * (o.howmany * o.cdist) := by
  obtain ⟨h1, h2, h3⟩ := (mem_cwords x).1 hx
  rw [← h.cdist] at h2
  exact rad2_lt h2 h1 h3

theorem r_lt (h : o.Std) {x : ℕ × ℕ} (hx : x ∈ o.rwords) : x.1 * o.rdist + x.2 < o.howmany * o.rdist := by
  obtain ⟨h1, h2⟩ := (mem_rwords x).1 hx
  exact rad_lt (lt_of_lt_of_le h2 h.rdist) h1

theorem nodup_c (h : o.Std) (p : Loc) : (o.cwords.map (o.caddr p)).Nodup := by
  refine List.Nodup.map_on ?_ (List.nodup_range.product (List.nodup_range.product List.nodup_range))
  intro x hx y hy hxy
  have := congrArg Loc.off hxy
  simp only [caddr, Loc.add_off, Nat.add_left_cancel_iff] at this
  obtain ⟨h1, h2, h3⟩ := (mem_cwords x).1 hx
  obtain ⟨h1', h2', h3'⟩ := (mem_cwords y).1 hy
  rw [← h.cdist] at h2 h2'
  obtain ⟨a1, a2⟩ := rad_inj h2 h2' (show x.1 * o.cdist + x.2.1 = y.1 * o.cdist + y.2.1 by omega)
  refine Prod.ext a1 (Prod.ext a2 ?_)
  rw [a1, a2] at this
  omega

theorem nodup_r (h : o.Std) (p : Loc) : (o.rwords.map (o.raddr p)).Nodup := by
  refine List.Nodup.map_on ?_ (List.nodup_range.product List.nodup_range)
  intro x hx y hy hxy
  have := congrArg Loc.off hxy
  simp only [raddr, Loc.add_off, Nat.add_left_cancel_iff] at this
  obtain ⟨h1, h2⟩ := (mem_rwords x).1 hx
  obtain ⟨h1', h2'⟩ := (mem_rwords y).1 hy
  obtain ⟨a1, a2⟩ := rad_inj (lt_of_lt_of_le h2 h.rdist) (lt_of_lt_of_le h2' h.rdist) this
  exact Prod.ext a1 a2

theorem r2c_ok {e : Eager} {i : ℕ} {env : ℕ → Local ℝ} {σ : Local ℝ} (hr : ∀ id, σ.req id = none) (h : o.Std) {src dst : Loc}
    (hip : (o.inplace = true) ↔ src = dst) (hdist : o.inplace = true → o.rdist = 2 * o.cdist)
    (hs : src.off + o.howmany * o.rdist ≤ σ.size src.buf) (hd : dst.off + 2 * (o.howmany * o.cdist) ≤ σ.size dst.buf) :
    ∃ m, (o.r2c src dst).eval e i env σ = some ((), { σ with mem := m }) ∧
      (∀ k < o.howmany, ∀ s < o.n / 2 + 1, cget m (dst + 2 * (k * o.cdist + s)) =
        ∑ j ∈ range o.n, (σ.mem (src + (k * o.rdist + j)) : ℂ) * w o.n (-((s : ℤ) * j))) ∧
      ∀ a, ¬ (Region.mk dst (2 * (o.howmany * o.cdist))).has a → m a = σ.mem a := by
  have hin : ∀ a ∈ o.rwords.map (o.raddr src), σ.inBounds a := by
    intro a ha
    obtain ⟨x, hx, rfl⟩ := List.mem_map.1 ha
    exact inB hs (r_lt h hx)
  have hout : ∀ a ∈ o.cwords.map (o.caddr dst), σ.inBounds a := by
    intro a ha
    obtain ⟨x, hx, rfl⟩ := List.mem_map.1 ha
    exact inB hd (c_lt h hx)
  obtain ⟨m, g, h1, h2, h3, h4⟩ := apply_ok (e := e) (i := i) (env := env) hr (rd := o.rwords.map (o.raddr src))
    (wr := (o.cwords.map fun x => (o.caddr dst x, fun g =>
          cpart (∑ j ∈ Finset.range o.n, (g (o.raddr src (x.1, j)) : ℂ) * w o.n (-((x.2.1 : ℤ) * j))) x.2.2)) ++
        if o.inplace = true then
          ((o.rwords.map (o.raddr src)).filter fun a => decide (a ∉ o.cwords.map (o.caddr dst))).map fun a => (a, fun g => o.junk g a)
        else [])
    hin
    (by
      intro x hx
      rcases List.mem_append.1 hx with hx | hx
      · obtain ⟨y, hy, rfl⟩ := List.mem_map.1 hx
        exact hout _ (List.mem_map.2 ⟨y, hy, rfl⟩)
      · split_ifs at hx
        · obtain ⟨y, hy, rfl⟩ := List.mem_map.1 hx
          exact hin _ (List.mem_filter.1 hy).1
        · simp at hx)
    (by
      rw [List.map_append, List.map_map]
      refine List.Nodup.append (nodup_c h dst) ?_ ?_
      · split_ifs
        · rw [List.map_map]
          exact ((nodup_r h src).filter _).map fun _ _ h => h
        · simp
      · intro a ha hb
        split_ifs at hb
        · rw [List.map_map] at hb
          obtain ⟨y, hy, rfl⟩ := List.mem_map.1 hb
          have := (List.mem_filter.1 hy).2
          simp only [decide_eq_true_eq] at this
          exact this ha
        · simp at hb)
  refine ⟨m, ?_, ?_, ?_⟩
  · unfold r2c
    rw [if_pos hip]
    exact h1
  · intro k hk s hs'
    refine cget_of fun c hc => ?_
    have := h3 _ (List.mem_append_left _ (List.mem_map.2 ⟨(k, s, c), (mem_cwords (k, s, c)).2 ⟨hk, hs', hc⟩, rfl⟩))
    simp only [caddr] at this
    rw [this]
    congr 1
    refine sum_congr rfl fun j hj => ?_
    rw [h2 _ (List.mem_map.2 ⟨(k, j), (mem_rwords (k, j)).2 ⟨hk, mem_range.1 hj⟩, rfl⟩)]
    rfl
  · intro a ha
    refine h4 a fun x hx => ?_
    rcases List.mem_append.1 hx with hx | hx
    · obtain ⟨y, hy, rfl⟩ := List.mem_map.1 hx
      rintro rfl
      exact ha (region_has.2 ⟨_, c_lt h hy, rfl⟩)
    · split_ifs at hx with hc
      · obtain ⟨y, hy, rfl⟩ := List.mem_map.1 hx
        obtain ⟨z, hz, rfl⟩ := List.mem_map.1 (List.mem_filter.1 hy).1
        rintro rfl
        refine ha (region_has.2 ⟨_, ?_, by rw [← hip.1 hc]; rfl⟩)
        have := r_lt h hz
        have e1 : o.howmany * o.rdist = 2 * (o.howmany * o.cdist) := by rw [hdist hc]; ring
        omega
      · simp at hx

theorem c2r_ok {e : Eager} {i : ℕ} {env : ℕ → Local ℝ} {σ : Local ℝ} (hr : ∀ id, σ.req id = none) (h : o.Std) {src dst : Loc}
    (hip : (o.inplace = true) ↔ src = dst) (hd : dst.off + o.howmany * o.rdist ≤ σ.size dst.buf)
    (hs : src.off + 2 * (o.howmany * o.cdist) ≤ σ.size src.buf)
    (hX : ∀ k < o.howmany, RPlan.realSpec o.n fun s => cget σ.mem (src + 2 * (k * o.cdist + s))) :
    ∃ m, (o.c2r src dst).eval e i env σ = some ((), { σ with mem := m }) ∧
      (∀ k < o.howmany, ∀ j < o.n, m (dst + (k * o.rdist + j)) =
        (∑ s ∈ range o.n, RPlan.full o.n (fun s => cget σ.mem (src + 2 * (k * o.cdist + s))) s * w o.n (s * j)).re) ∧
      ∀ a, ¬ (Region.mk dst (o.howmany * o.rdist)).has a → ¬ (Region.mk src (2 * (o.howmany * o.cdist))).has a → m a = σ.mem a := by
  classical
  have hout : ∀ a ∈ o.rwords.map (o.raddr dst), σ.inBounds a := by
    intro a ha
    obtain ⟨x, hx, rfl⟩ := List.mem_map.1 ha
    exact inB hd (r_lt h hx)
  have hin : ∀ a ∈ o.cwords.map (o.caddr src), σ.inBounds a := by
    intro a ha
    obtain ⟨x, hx, rfl⟩ := List.mem_map.1 ha
    exact inB hs (c_lt h hx)
  obtain ⟨m, g, h1, h2, h3, h4⟩ := apply_ok (e := e) (i := i) (env := env) hr (rd := o.cwords.map (o.caddr src))
    (wr := (o.rwords.map fun x => (o.raddr dst x, fun g =>
          let S := fun s => cget g (o.caddr src (x.1, s, 0))
          if RPlan.realSpec o.n S then (∑ s ∈ Finset.range o.n, RPlan.full o.n S s * w o.n (s * x.2)).re else o.junk g (o.raddr dst x))) ++
        ((o.cwords.map (o.caddr src)).filter fun a => decide (a ∉ o.rwords.map (o.raddr dst))).map fun a => (a, fun g => o.junk g a))
    hin
    (by
      intro x hx
      rcases List.mem_append.1 hx with hx | hx
      · obtain ⟨y, hy, rfl⟩ := List.mem_map.1 hx
        exact hout _ (List.mem_map.2 ⟨y, hy, rfl⟩)
      · obtain ⟨y, hy, rfl⟩ := List.mem_map.1 hx
        exact hin _ (List.mem_filter.1 hy).1)
    (by
      rw [List.map_append, List.map_map, List.map_map]
      refine List.Nodup.append (nodup_r h dst) (((nodup_c h src).filter _).map fun _ _ h => h) ?_
      intro a ha hb
      obtain ⟨y, hy, rfl⟩ := List.mem_map.1 hb
      have := (List.mem_filter.1 hy).2
      simp only [decide_eq_true_eq] at this
      exact this ha)
  have hg : ∀ k < o.howmany, ∀ s < o.n / 2 + 1, cget g (o.caddr src (k, s, 0)) = cget σ.mem (src + 2 * (k * o.cdist + s)) := by
    intro k hk s hs'
    refine cget_of fun c hc => ?_
    have := h2 _ (List.mem_map.2 ⟨(k, s, c), (mem_cwords (k, s, c)).2 ⟨hk, hs', hc⟩, rfl⟩)
    simp only [caddr] at this ⊢
    rw [Nat.add_zero, this]
    exact of_cget rfl hc
  refine ⟨m, ?_, ?_, ?_⟩
  · unfold c2r
    rw [if_pos hip]
    exact h1
  · intro k hk j hj
    have := h3 _ (List.mem_append_left _ (List.mem_map.2 ⟨(k, j), (mem_rwords (k, j)).2 ⟨hk, hj⟩, rfl⟩))
    simp only [raddr] at this
    rw [this]
    have hS : RPlan.realSpec o.n fun s => cget g (o.caddr src (k, s, 0)) := by
      obtain ⟨r1, r2⟩ := hX k hk
      refine ⟨by beta_reduce; rw [hg k hk 0 (by omega)]; exact r1, fun he => ?_⟩
      beta_reduce
      rw [hg k hk (o.n / 2) (by omega)]
      exact r2 he
    rw [if_pos hS]
    congr 1
    refine sum_congr rfl fun s hs' => ?_
    congr 1
    unfold RPlan.full
    split_ifs with hc
    · exact hg k hk s hc
    · beta_reduce
      rw [hg k hk (o.n - s) (by have := mem_range.1 hs'; omega)]
  · intro a ha ha'
    refine h4 a fun x hx => ?_
    rcases List.mem_append.1 hx with hx | hx
    · obtain ⟨y, hy, rfl⟩ := List.mem_map.1 hx
      rintro rfl
      exact ha (region_has.2 ⟨_, r_lt h hy, rfl⟩)
    · obtain ⟨y, hy, rfl⟩ := List.mem_map.1 hx
      obtain ⟨z, hz, rfl⟩ := List.mem_map.1 (List.mem_filter.1 hy).1
      rintro rfl
      exact ha' (region_has.2 ⟨_, c_lt h hz, rfl⟩)

end Mrc

namespace Rcfft2MPI
variable {o : Rcfft2MPI}

theorem mem_oddRows {start stop i : ℕ} : i ∈ oddRows start stop ↔ start ≤ i ∧ i < stop ∧ (i - start) % 2 = 0 := by
  unfold oddRows
  rw [List.mem_map]
  constructor
  · rintro ⟨t, ht, rfl⟩
    rw [List.mem_range] at ht
    omega
  · rintro ⟨h1, h2, h3⟩
    exact ⟨(i - start) / 2, List.mem_range.2 (by omega), by omega⟩

theorem nodup_oddRows (start stop : ℕ) : (oddRows start stop).Nodup := List.nodup_range.map fun a b h => by
  have : start + 2 * a = start + 2 * b := h
  omega

/-- `(-1)^k`. -/
def sgn (k : ℕ) : ℝ := if k % 2 = 0 then 1 else -1

theorem shift_ok {e : Eager} {i : ℕ} {env : ℕ → Local ℝ} {σ : Local ℝ} (hr : ∀ id, σ.req id = none) (hX : o.X % 2 = 0) (hY : o.Y ≤ o.rdist) {f : Loc}
    (hs : f.off + o.x * o.rdist ≤ σ.size f.buf) :
    ∃ m, (o.shift (some f)).eval e i env σ = some ((), { σ with mem := m }) ∧
      (∀ k < o.x, ∀ j < o.Y, m (f + (k * o.rdist + j)) = sgn (o.x0 + k) * σ.mem (f + (k * o.rdist + j))) ∧
      ∀ a, ¬ (Region.mk f (o.x * o.rdist)).has a → m a = σ.mem a := by
  have hmem : ∀ x : ℕ × ℕ, x ∈ (oddRows ((o.x0 + 1) % 2) o.x ×ˢ List.range o.Y) ↔ (x.1 < o.x ∧ (o.x0 + x.1) % 2 = 1) ∧ x.2 < o.Y := by
    intro x
    rw [show x = (x.1, x.2) from rfl, List.mem_product, List.mem_range, mem_oddRows]
    simp only
    omega
  have hlt : ∀ x : ℕ × ℕ, x ∈ (oddRows ((o.x0 + 1) % 2) o.x ×ˢ List.range o.Y) → x.1 * o.rdist + x.2 < o.x * o.rdist := by
    intro x hx
    obtain ⟨h1, h2⟩ := (hmem x).1 hx
    exact rad_lt (lt_of_lt_of_le h2 hY) h1.1
  obtain ⟨m, g, h1, h2, h3, h4⟩ := apply_ok (e := e) (i := i) (env := env) hr
    (rd := (oddRows ((o.x0 + 1) % 2) o.x ×ˢ List.range o.Y).map fun x => f + (x.1 * o.rdist + x.2))
    (wr := (oddRows ((o.x0 + 1) % 2) o.x ×ˢ List.range o.Y).map fun x => (f + (x.1 * o.rdist + x.2), fun g => -g (f + (x.1 * o.rdist + x.2))))
    (by
      intro a ha
      obtain ⟨x, hx, rfl⟩ := List.mem_map.1 ha
      exact inB hs (hlt x hx))
    (by
      intro a ha
      obtain ⟨x, hx, rfl⟩ := List.mem_map.1 ha
      exact inB hs (hlt x hx))
    (by
      rw [List.map_map]
      refine List.Nodup.map_on ?_ ((nodup_oddRows _ _).product List.nodup_range)
      intro x hx y hy hxy
      have := congrArg Loc.off hxy
      simp only [Function.comp, Loc.add_off, Nat.add_left_cancel_iff] at this
      obtain ⟨a1, a2⟩ := rad_inj (lt_of_lt_of_le ((hmem x).1 hx).2 hY) (lt_of_lt_of_le ((hmem y).1 hy).2 hY) this
      exact Prod.ext a1 a2)
  refine ⟨m, ?_, ?_, ?_⟩
  · unfold shift
    rw [if_pos hX]
    exact h1
  · intro k hk j hj
    unfold sgn
    split_ifs with hc
    · rw [h4, one_mul]
      intro x hx he
      obtain ⟨y, hy, rfl⟩ := List.mem_map.1 hx
      have := congrArg Loc.off he
      simp only [Loc.add_off, Nat.add_left_cancel_iff] at this
      obtain ⟨a1, a2⟩ := rad_inj (lt_of_lt_of_le hj hY) (lt_of_lt_of_le ((hmem y).1 hy).2 hY) this
      have := ((hmem y).1 hy).1.2
      omega
    · have hm := (hmem (k, j)).2 ⟨⟨hk, by simp only; omega⟩, hj⟩
      have := h3 _ (List.mem_map.2 ⟨(k, j), hm, rfl⟩)
      simp only at this
      rw [this, h2 _ (List.mem_map.2 ⟨(k, j), hm, rfl⟩)]
      ring
  · intro a ha
    refine h4 a fun x hx => ?_
    obtain ⟨y, hy, rfl⟩ := List.mem_map.1 hx
    rintro rfl
    exact ha (region_has.2 ⟨_, hlt y hy, rfl⟩)

theorem normalize_ok {e : Eager} {i : ℕ} {env : ℕ → Local ℝ} {σ : Local ℝ} (hr : ∀ id, σ.req id = none) {f : Loc}
    (hs : f.off + o.x * o.rdist ≤ σ.size f.buf) :
    ∃ m, (o.normalize f).eval e i env σ = some ((), { σ with mem := m }) ∧
      (∀ k < o.x * o.rdist, m (f + k) = σ.mem (f + k) * (1 / ((o.X * o.Y : ℕ) : ℝ))) ∧
      ∀ a, ¬ (Region.mk f (o.x * o.rdist)).has a → m a = σ.mem a := by
  obtain ⟨m, g, h1, h2, h3, h4⟩ := apply_ok (e := e) (i := i) (env := env) hr (rd := (List.range (o.x * o.rdist)).map fun i => f + i)
    (wr := (List.range (o.x * o.rdist)).map fun i => (f + i, fun g => g (f + i) * (1 / ((o.X * o.Y : ℕ) : ℝ))))
    (by
      intro a ha
      obtain ⟨x, hx, rfl⟩ := List.mem_map.1 ha
      exact inB hs (List.mem_range.1 hx))
    (by
      intro a ha
      obtain ⟨x, hx, rfl⟩ := List.mem_map.1 ha
      exact inB hs (List.mem_range.1 hx))
    (by
      rw [List.map_map]
      refine List.nodup_range.map fun a b hab => ?_
      simpa using congrArg Loc.off hab)
  refine ⟨m, h1, ?_, ?_⟩
  · intro k hk
    have := h3 _ (List.mem_map.2 ⟨k, List.mem_range.2 hk, rfl⟩)
    simp only at this
    rw [this, h2 _ (List.mem_map.2 ⟨k, List.mem_range.2 hk, rfl⟩)]
  · intro a ha
    refine h4 a fun x hx => ?_
    obtain ⟨y, hy, rfl⟩ := List.mem_map.1 hx
    exact fun he => ha (region_has.2 ⟨y, List.mem_range.1 hy, he⟩)

end Rcfft2MPI
end Fftwpp.Net
