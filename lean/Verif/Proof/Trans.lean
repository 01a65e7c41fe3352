import Verif.Proof.Mix

/-!
# The phases of the distributed transpose
-/

namespace Fftwpp.Net
variable {V : Type}

/-- The packing at the beginning of `outphase0`. -/
def MT.packP (t : MT) (input work : Loc) : Prog V Unit :=
  (if t.uniform = true then transpose (t.n * t.a) t.b (t.m * t.L) t.compact input work
  else if t.subblock = true then do
    .call (.moves (at' work input t.packL1))
    (if (t.M - t.m0 * t.a * t.b) * t.L > 0 then do
      (if t.mlast - t.a * t.b > 0 then .call (.moves (at' work input t.packL2)) else .ret ())
      .call (.moves (at' work input t.packL3))
    else .ret ())
  else .call (.moves (at' work input t.packL)))

/-- The unpacking in `inpost`. -/
def MT.unpackP (t : MT) (output work : Loc) : Prog V Unit :=
  if t.uniform = true then transpose t.b (t.n * t.a) (t.m * t.L) t.compact work output
  else if t.subblock = true then do
    .call (.moves (at' output work (swapL t.packL1)))
    (if (t.M - t.m0 * t.a * t.b) * t.L > 0 then do
      (if t.mlast - t.a * t.b > 0 then .call (.moves (at' output work (swapL t.packL2))) else .ret ())
      .call (.moves (at' output work (swapL t.packL3)))
    else .ret ())
  else .call (.moves (at' output work (swapL t.packL)))

namespace Geo
variable {g : Geo}

theorem packP_eq (i : ℕ) (hu : g.uniform = false) (input work : Loc) :
    ((g.mt i).packP input work : Prog V Unit) = Prog.calls ((g.packs i).map fun l => .moves (at' work input l)) := by
  unfold MT.packP packs
  rw [if_neg (show ¬ (g.mt i).uniform = true by rw [show (g.mt i).uniform = g.uniform from rfl, hu]; simp)]
  by_cases hs : g.a > 1 ∧ i < g.a * g.b
  · rw [if_pos (show (g.mt i).subblock = true from decide_eq_true hs), if_pos hs]
    show _ = Prog.calls (List.map _ (_ :: if ((g.mt i).M - (g.mt i).m0 * (g.mt i).a * (g.mt i).b) * (g.mt i).L > 0 then
      (if (g.mt i).mlast - (g.mt i).a * (g.mt i).b > 0 then [(g.mt i).packL2] else []) ++ [(g.mt i).packL3] else []))
    split_ifs <;> rfl
  · rw [if_neg (show ¬ (g.mt i).subblock = true from by simpa [mt] using hs), if_neg hs]
    rfl

theorem unpackP_eq (i : ℕ) (hu : g.uniform = false) (output work : Loc) :
    ((g.mt i).unpackP output work : Prog V Unit) = Prog.calls (((g.packs i).map swapL).map fun l => .moves (at' output work l)) := by
  unfold MT.unpackP packs
  rw [if_neg (show ¬ (g.mt i).uniform = true by rw [show (g.mt i).uniform = g.uniform from rfl, hu]; simp)]
  by_cases hs : g.a > 1 ∧ i < g.a * g.b
  · rw [if_pos (show (g.mt i).subblock = true from decide_eq_true hs), if_pos hs]
    show _ = Prog.calls (List.map _ (List.map _ (_ :: if ((g.mt i).M - (g.mt i).m0 * (g.mt i).a * (g.mt i).b) * (g.mt i).L > 0 then
      (if (g.mt i).mlast - (g.mt i).a * (g.mt i).b > 0 then [(g.mt i).packL2] else []) ++ [(g.mt i).packL3] else [])))
    split_ifs <;> rfl
  · rw [if_neg (show ¬ (g.mt i).subblock = true from by simpa [mt] using hs), if_neg hs]
    rfl

theorem uniform_size (h : g.OK) (hu : g.uniform = true) {i : ℕ} (hi : i < g.size) :
    g.nn i = g.n0 ∧ g.mm i = g.m0 ∧ g.nn i * g.a * g.b * (g.mm i * g.L) = g.nn i * g.M * g.L ∧ g.N * g.mm i * g.L = g.nn i * g.M * g.L := by
  have hi' : i < g.a * g.b := by rw [h.uniform hu]; exact hi
  have h1 := h.nn_eq (Or.inr hu) hi'
  have h2 := h.mm_eq (Or.inr hu) hi'
  refine ⟨h1, h2, ?_, ?_⟩
  · rw [h1, h2, h.uniform_M hu]; ring
  · rw [h1, h2, h.uniform_M hu, h.uniform_N hu]; ring

theorem pack_ok {e : Eager} {i : ℕ} {env : ℕ → Local V} {σ : Local V} (h : g.OK) (hi : i < g.size) (hr : ∀ id, σ.req id = none) {inp wk : Loc}
    (hip : g.compact = true → inp = wk) (hop : g.compact = false → inp.buf ≠ wk.buf) (hs : inp.off + g.nn i * g.M * g.L ≤ σ.size inp.buf)
    (hd : wk.off + g.nn i * g.M * g.L ≤ σ.size wk.buf) :
    ∃ m, ((g.mt i).packP inp wk).eval e i env σ = some ((), { σ with mem := m }) ∧
      Packed g i (fun x => σ.mem (inp + x)) (fun x => m (wk + x)) ∧ ∀ a, ¬ (Region.mk wk (g.nn i * g.M * g.L)).has a → m a = σ.mem a := by
  by_cases hu : g.uniform = true
  · obtain ⟨u1, u2, u3, u4⟩ := uniform_size h hu hi
    obtain ⟨m, h1, h2, h3⟩ := transpose_ok (e := e) (i := i) (env := env) hr (rows := g.nn i * g.a) (cols := g.b) (length := g.mm i * g.L)
      (ip := g.compact) (s := inp) (d := wk) hip hop (by rw [u3]; exact hd) (by rw [u3]; exact hs)
    refine ⟨m, ?_, ?_, ?_⟩
    · unfold MT.packP
      rw [if_pos (show (g.mt i).uniform = true from hu)]
      exact h1
    · refine packed_uniform h hi hu fun r hr c hc k hk => ?_
      rw [u2] at h2
      exact h2 r hr c hc k hk
    · intro a ha
      refine h3 a ?_
      rw [u3]; exact ha
  · have hu' : g.uniform = false := by simpa using hu
    have hc : g.compact = false := by
      by_contra hc
      exact hu (h.compact (by simpa using hc)).1
    obtain ⟨m, h1, h2, h3⟩ := multi_moves (e := e) (i := i) (env := env) (d := wk) (s := inp) (fun hh => hop hc hh.symm) hr (packs_nodup h hi)
      (fun x hx => by
        obtain ⟨j, Q, k, hp⟩ := (mem_packs h hi x).1 hx
        exact inB hd (hp.fst_lt h))
      (fun x hx => by
        obtain ⟨j, Q, k, hp⟩ := (mem_packs h hi x).1 hx
        exact inB hs (hp.snd_lt h))
    refine ⟨m, ?_, packed_of h hi h2, ?_⟩
    · rw [packP_eq i hu']; exact h1
    · intro a ha
      refine h3 a fun x hx heq => ha (region_has.2 ⟨x.1, ?_, heq⟩)
      obtain ⟨j, Q, k, hp⟩ := (mem_packs h hi x).1 hx
      exact hp.fst_lt h

/-- The unpacked data. -/
structure Unpacked (g : Geo) (i : ℕ) (wk out : ℕ → V) : Prop where
  dir : ∀ Q < g.size, ¬ (g.a > 1 ∧ i < g.a * g.b ∧ Q < g.a * g.b) → ∀ j < g.nn i, ∀ k < g.mm Q * g.L,
    out (j * (g.M * g.L) + (Q * (g.m0 * g.L) + k)) = wk (g.nn i * g.L * g.m0 * Q + (j * (g.mm Q * g.L) + k))
  blk : g.a > 1 → i < g.a * g.b → ∀ u < g.a, ∀ v < g.b, ∀ j < g.nn i, ∀ k < g.m0 * g.L,
    out (j * (g.M * g.L) + ((u * g.b + v) * (g.m0 * g.L) + k)) = wk (((v * g.nn i + j) * g.a + u) * (g.m0 * g.L) + k)

theorem Packed.un {i : ℕ} {a b : ℕ → V} (h : Packed g i a b) : Unpacked g i b a :=
  ⟨fun Q hQ hn j hj k hk => (h.dir Q hQ hn j hj k hk).symm, fun h1 h2 u hu v hv j hj k hk => (h.blk h1 h2 u hu v hv j hj k hk).symm⟩

theorem unpack_ok {e : Eager} {i : ℕ} {env : ℕ → Local V} {σ : Local V} (h : g.OK) (hi : i < g.size) (hr : ∀ id, σ.req id = none) {out wk : Loc}
    (hip : g.compact = true → wk = out) (hop : g.compact = false → wk.buf ≠ out.buf) (hs : wk.off + g.nn i * g.M * g.L ≤ σ.size wk.buf)
    (hd : out.off + g.nn i * g.M * g.L ≤ σ.size out.buf) :
    ∃ m, ((g.mt i).unpackP out wk).eval e i env σ = some ((), { σ with mem := m }) ∧
      Unpacked g i (fun x => σ.mem (wk + x)) (fun x => m (out + x)) ∧ ∀ a, ¬ (Region.mk out (g.nn i * g.M * g.L)).has a → m a = σ.mem a := by
  by_cases hu : g.uniform = true
  · obtain ⟨u1, u2, u3, u4⟩ := uniform_size h hu hi
    have u3' : g.b * (g.nn i * g.a) * (g.mm i * g.L) = g.nn i * g.M * g.L := by rw [← u3]; ring
    obtain ⟨m, h1, h2, h3⟩ := transpose_ok (e := e) (i := i) (env := env) hr (rows := g.b) (cols := g.nn i * g.a) (length := g.mm i * g.L)
      (ip := g.compact) (s := wk) (d := out) hip hop (by rw [u3']; exact hd) (by rw [u3']; exact hs)
    refine ⟨m, ?_, ?_, ?_⟩
    · unfold MT.unpackP
      rw [if_pos (show (g.mt i).uniform = true from hu)]
      exact h1
    · refine (packed_uniform (inp := fun x => m (out + x)) (wk := fun x => σ.mem (wk + x)) h hi hu fun r hr c hc k hk => ?_).un
      rw [u2] at h2
      exact (h2 c hc r hr k hk).symm
    · intro a ha
      refine h3 a ?_
      rw [u3']; exact ha
  · have hu' : g.uniform = false := by simpa using hu
    have hc : g.compact = false := by
      by_contra hc
      exact hu (h.compact (by simpa using hc)).1
    have hmem : ∀ x, x ∈ ((g.packs i).map swapL).flatten ↔ (x.2, x.1) ∈ (g.packs i).flatten := by
      intro x
      rw [flatten_swapL]
      unfold swapL
      rw [List.mem_map]
      constructor
      · rintro ⟨y, hy, rfl⟩; exact hy
      · intro hx; exact ⟨_, hx, rfl⟩
    obtain ⟨m, h1, h2, h3⟩ := multi_moves (e := e) (i := i) (env := env) (d := out) (s := wk) (fun hh => hop hc hh.symm) hr (unpacks_nodup h hi)
      (fun x hx => by
        obtain ⟨j, Q, k, hp⟩ := (mem_packs h hi _).1 ((hmem x).1 hx)
        exact inB hd (hp.snd_lt h))
      (fun x hx => by
        obtain ⟨j, Q, k, hp⟩ := (mem_packs h hi _).1 ((hmem x).1 hx)
        exact inB hs (hp.fst_lt h))
    refine ⟨m, ?_, (packed_of (inp := fun x => m (out + x)) (wk := fun x => σ.mem (wk + x)) h hi fun x hx => ?_).un, ?_⟩
    · rw [unpackP_eq i hu']; exact h1
    · exact (h2 (x.2, x.1) ((hmem _).2 hx)).symm
    · intro a ha
      refine h3 a fun x hx heq => ha (region_has.2 ⟨x.1, ?_, heq⟩)
      obtain ⟨j, Q, k, hp⟩ := (mem_packs h hi _).1 ((hmem x).1 hx)
      exact hp.snd_lt h

end Geo
end Fftwpp.Net
