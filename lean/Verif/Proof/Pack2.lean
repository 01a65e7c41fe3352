import Verif.Proof.Pack

/-!
# Packing and unpacking
-/

namespace Fftwpp.Net
variable {V : Type}

/-- Several copies in sequence. -/
theorem multi_moves {e : Eager} {i : ℕ} {env : ℕ → Local V} {d s : Loc} (hb : d.buf ≠ s.buf) : ∀ {ls : List (List (ℕ × ℕ))} {σ : Local V},
    (∀ id, σ.req id = none) → (ls.flatten.map (·.1)).Nodup → (∀ x ∈ ls.flatten, σ.inBounds (d + x.1)) → (∀ x ∈ ls.flatten, σ.inBounds (s + x.2)) →
    ∃ m, (Prog.calls (ls.map fun l => .moves (at' d s l))).eval e i env σ = some ((), { σ with mem := m }) ∧
      (∀ x ∈ ls.flatten, m (d + x.1) = σ.mem (s + x.2)) ∧ ∀ a, (∀ x ∈ ls.flatten, a ≠ d + x.1) → m a = σ.mem a := by
  intro ls
  induction ls with
  | nil => intro σ _ _ _ _; exact ⟨σ.mem, rfl, by simp, fun _ _ => rfl⟩
  | cons l t ih =>
    intro σ hr hnd hd hs
    simp only [List.flatten_cons, List.map_append, List.nodup_append] at hnd
    obtain ⟨hn1, hn2, hn3⟩ := hnd
    obtain ⟨m1, a1, a2, a3⟩ := moves_ok (e := e) (i := i) (env := env) hr hn1 hb (fun x hx => hd x (by simp [hx])) (fun x hx => hs x (by simp [hx]))
    obtain ⟨m2, b1, b2, b3⟩ := ih (σ := { σ with mem := m1 }) hr hn2 (fun x hx => hd x (by simp only [List.flatten_cons, List.mem_append]; exact Or.inr hx))
      (fun x hx => hs x (by simp only [List.flatten_cons, List.mem_append]; exact Or.inr hx))
    have hsrc : ∀ j : ℕ, m1 (s + j) = σ.mem (s + j) := by
      intro j
      refine a3 _ fun x _ he => hb ?_
      simpa using (congrArg Loc.buf he).symm
    refine ⟨m2, ?_, ?_, ?_⟩
    · simp only [List.map_cons, Prog.calls]
      rw [eval_seq a1]
      exact b1
    · intro x hx
      rcases List.mem_append.1 (by simpa only [List.flatten_cons] using hx) with h | h
      · rw [b3]
        · exact a2 x h
        · intro y hy he
          refine hn3 x.1 (List.mem_map.2 ⟨x, h, rfl⟩) y.1 (List.mem_map.2 ⟨y, hy, rfl⟩) ?_
          simpa [Loc.ext_iff] using he
      · rw [b2 x h]
        exact hsrc _
    · intro a ha
      rw [b3 a fun x hx => ha x (by simp only [List.flatten_cons, List.mem_append]; exact Or.inr hx)]
      exact a3 a fun x hx => ha x (by simp [hx])

namespace Geo
variable {g : Geo}

/-- The copies made when packing, process by process (not uniform). -/
def packs (g : Geo) (r : ℕ) : List (List (ℕ × ℕ)) :=
  if g.a > 1 ∧ r < g.a * g.b then
    (g.mt r).packL1 :: if (g.M - g.m0 * g.a * g.b) * g.L > 0 then (if g.mlast - g.a * g.b > 0 then [(g.mt r).packL2] else []) ++ [(g.mt r).packL3] else []
  else [(g.mt r).packL]

/-- An element of the packing list. -/
structure PackEl (g : Geo) (r : ℕ) (i Q k : ℕ) (x : ℕ × ℕ) : Prop where
  ri : i < g.nn r
  rQ : Q < g.size
  rk : k < g.mm Q * g.L
  snd : x.2 = i * (g.M * g.L) + (Q * (g.m0 * g.L) + k)
  dir : ¬ (g.a > 1 ∧ r < g.a * g.b ∧ Q < g.a * g.b) → x.1 = g.nn r * g.L * g.m0 * Q + (i * (g.mm Q * g.L) + k)
  blk : (g.a > 1 ∧ r < g.a * g.b ∧ Q < g.a * g.b) → x.1 = ((Q % g.b * g.nn r + i) * g.a + Q / g.b) * (g.m0 * g.L) + k

theorem PackEl.eq {r i Q k : ℕ} {x y : ℕ × ℕ} (hx : PackEl g r i Q k x) (hy : PackEl g r i Q k y) : x = y := by
  ext
  · by_cases h : g.a > 1 ∧ r < g.a * g.b ∧ Q < g.a * g.b
    · rw [hx.blk h, hy.blk h]
    · rw [hx.dir h, hy.dir h]
  · rw [hx.snd, hy.snd]

theorem uv {b u v : ℕ} (hv : v < b) : (u * b + v) % b = v ∧ (u * b + v) / b = u := by
  constructor
  · rw [Nat.add_comm, Nat.add_mul_mod_self_right, Nat.mod_eq_of_lt hv]
  · rw [Nat.add_comm, Nat.add_mul_div_right _ _ (by omega), Nat.div_eq_of_lt hv, Nat.zero_add]

theorem mem_packs {r : ℕ} (h : g.OK) (hr : r < g.size) (x : ℕ × ℕ) : x ∈ (g.packs r).flatten ↔ ∃ i Q k, PackEl g r i Q k x := by
  unfold packs
  by_cases hs : g.a > 1 ∧ r < g.a * g.b
  · have hb := hs.1
    have hbs := h.ab_size (Or.inl hb)
    have hml := h.mlast
    rw [if_pos hs]
    -- each list
    have m1 : x ∈ (g.mt r).packL1 ↔ ∃ i Q k, Q < g.a * g.b ∧ PackEl g r i Q k x := by
      rw [mem_packL1]
      constructor
      · rintro ⟨i, hi, j, hj, v, hv, k, hk, rfl⟩
        have hQ : j * g.b + v < g.a * g.b := rad_lt hv hj
        refine ⟨i, j * g.b + v, k, hQ, hi, by omega, by rw [h.mm_eq (Or.inl hb) hQ]; exact hk, ?_, fun hn => absurd ⟨hb, hs.2, hQ⟩ hn, fun _ => ?_⟩
        · exact packL1_src h hb i j v k
        · simp only
          rw [packL1_dst, (uv hv).1, (uv hv).2]
      · rintro ⟨i, Q, k, hQ, hE⟩
        have hb0 : 0 < g.b := by
          rcases Nat.eq_zero_or_pos g.b with h0 | h0
          · rw [h0] at hQ; omega
          · exact h0
        have hv := Nat.mod_lt Q hb0
        have hj : Q / g.b < g.a := (Nat.div_lt_iff_lt_mul hb0).2 hQ
        have hQe : Q / g.b * g.b + Q % g.b = Q := by rw [Nat.mul_comm]; exact Nat.div_add_mod Q g.b
        refine ⟨i, hE.ri, Q / g.b, hj, Q % g.b, hv, k, by have := hE.rk; rwa [h.mm_eq (Or.inl hb) hQ] at this, ?_⟩
        ext
        · simp only
          rw [packL1_dst, hE.blk ⟨hb, hs.2, hQ⟩]
        · simp only
          rw [packL1_src h hb, hQe]
          exact hE.snd
    have m2 : x ∈ (g.mt r).packL2 ↔ ∃ i Q k, g.a * g.b ≤ Q ∧ Q < g.mlast ∧ PackEl g r i Q k x := by
      rw [mem_packL2 h hb]
      constructor
      · rintro ⟨i, hi, Q, h1, h2, k, hk, rfl⟩
        exact ⟨i, Q, k, h1, h2, hi, by omega, hk, rfl, fun _ => rfl, fun hn => absurd hn.2.2 (by omega)⟩
      · rintro ⟨i, Q, k, h1, h2, hE⟩
        refine ⟨i, hE.ri, Q, h1, h2, k, hE.rk, ?_⟩
        ext
        · exact hE.dir (fun hn => by omega)
        · exact hE.snd
    have m3 : g.a * g.b ≤ g.mlast → (x ∈ (g.mt r).packL3 ↔ ∃ i k, PackEl g r i g.mlast k x) := by
      intro hle
      rw [mem_packL3 h]
      constructor
      · rintro ⟨i, hi, k, hk, rfl⟩
        exact ⟨i, k, hi, by omega, hk, rfl, fun _ => rfl, fun hn => absurd hn.2.2 (by omega)⟩
      · rintro ⟨i, k, hE⟩
        refine ⟨i, hE.ri, k, hE.rk, ?_⟩
        ext
        · exact hE.dir (fun hn => by omega)
        · exact hE.snd
    have hbm := h.blockm (Or.inl hb)
    have hMM := h.M
    have hzero : ∀ Q, g.mlast < Q → g.mm Q = 0 := by
      intro Q hQ
      unfold mm; rw [if_neg (by omega), if_neg (by omega)]
    rw [List.flatten_cons, List.mem_append, m1]
    by_cases hex : (g.M - g.m0 * g.a * g.b) * g.L > 0
    · rw [if_pos hex]
      have hle : g.a * g.b ≤ g.mlast := by
        by_contra hcon
        split_ifs at hbm with hc
        · have h1 : g.a * g.b = g.mlast + 1 := by omega
          have : g.M = g.m0 * g.a * g.b := by
            rw [Nat.mul_assoc, h1, hMM, hc]; ring
          rw [this, Nat.sub_self, Nat.zero_mul] at hex
          omega
        · omega
      have m23 : x ∈ ((if g.mlast - g.a * g.b > 0 then [(g.mt r).packL2] else []) ++ [(g.mt r).packL3]).flatten ↔
          (∃ i Q k, g.a * g.b ≤ Q ∧ Q < g.mlast ∧ PackEl g r i Q k x) ∨ ∃ i k, PackEl g r i g.mlast k x := by
        rw [List.flatten_append, List.mem_append, ← m3 hle, ← m2]
        by_cases h2 : g.mlast - g.a * g.b > 0
        · rw [if_pos h2]; simp
        · rw [if_neg h2]
          have hno : x ∉ (g.mt r).packL2 := by
            rw [m2]
            rintro ⟨i, Q, k, a1, a2, _⟩
            omega
          simp [hno]
      rw [m23]
      constructor
      · rintro (⟨i, Q, k, _, hE⟩ | ⟨i, Q, k, _, _, hE⟩ | ⟨i, k, hE⟩)
        · exact ⟨i, Q, k, hE⟩
        · exact ⟨i, Q, k, hE⟩
        · exact ⟨i, _, k, hE⟩
      · rintro ⟨i, Q, k, hE⟩
        rcases Nat.lt_or_ge Q (g.a * g.b) with h1 | h1
        · exact Or.inl ⟨i, Q, k, h1, hE⟩
        · rcases Nat.lt_trichotomy Q g.mlast with h2 | h2 | h2
          · exact Or.inr (Or.inl ⟨i, Q, k, h1, h2, hE⟩)
          · subst h2; exact Or.inr (Or.inr ⟨i, k, hE⟩)
          · have := hE.rk
            rw [hzero Q h2] at this
            omega
    · rw [if_neg hex]
      simp only [List.flatten_nil, List.not_mem_nil, or_false]
      constructor
      · rintro ⟨i, Q, k, _, hE⟩; exact ⟨i, Q, k, hE⟩
      · rintro ⟨i, Q, k, hE⟩
        refine ⟨i, Q, k, ?_, hE⟩
        by_contra hcon
        have hk := hE.rk
        have hL : 0 < g.L := Nat.pos_of_mul_pos_left (lt_of_le_of_lt (Nat.zero_le _) hk)
        have hmQ : 0 < g.mm Q := Nat.pos_of_mul_pos_right (lt_of_le_of_lt (Nat.zero_le _) hk)
        have hM0 : g.M ≤ g.m0 * g.a * g.b := by
          by_contra hc
          exact hex (Nat.mul_pos (by omega) hL)
        rcases h.mm_M Q with h0 | h0
        · omega
        · have : g.a * g.b * g.m0 ≤ Q * g.m0 := Nat.mul_le_mul_right _ (by omega)
          have e : g.m0 * g.a * g.b = g.a * g.b * g.m0 := by ring
          omega
  · rw [if_neg hs]
    simp only [List.flatten_cons, List.flatten_nil, List.append_nil]
    rw [mem_packL h]
    constructor
    · rintro ⟨i, hi, Q, hQ, k, hk, rfl⟩
      exact ⟨i, Q, k, hi, hQ, hk, rfl, fun _ => rfl, fun hn => absurd ⟨hn.1, hn.2.1⟩ hs⟩
    · rintro ⟨i, Q, k, hE⟩
      refine ⟨i, hE.ri, Q, hE.rQ, k, hE.rk, ?_⟩
      ext
      · exact hE.dir fun hn => hs ⟨hn.1, hn.2.1⟩
      · exact hE.snd

theorem mod_div_lt {a b Q : ℕ} (hQ : Q < a * b) : Q % b < b ∧ Q / b < a := by
  have hb0 : 0 < b := by
    rcases Nat.eq_zero_or_pos b with h0 | h0
    · rw [h0] at hQ; omega
    · exact h0
  exact ⟨Nat.mod_lt Q hb0, (Nat.div_lt_iff_lt_mul hb0).2 hQ⟩

theorem PackEl.fst_lt {r i Q k : ℕ} {x : ℕ × ℕ} (h : g.OK) (hx : PackEl g r i Q k x) : x.1 < g.nn r * g.M * g.L := by
  by_cases hb : g.a > 1 ∧ r < g.a * g.b ∧ Q < g.a * g.b
  · rw [hx.blk hb]
    obtain ⟨h1, h2⟩ := mod_div_lt hb.2.2
    have hk := hx.rk
    rw [h.mm_eq (Or.inl hb.1) hb.2.2] at hk
    have h3 := bk_lt (n := g.nn r) (B := g.m0 * g.L) h1 hx.ri h2 hk
    have h4 := Nat.mul_le_mul_left (g.nn r * g.L) (h.ab_m (Or.inl hb.1))
    have e1 : g.nn r * g.L * (g.a * g.b * g.m0) = g.nn r * (g.m0 * g.L) * (g.a * g.b) := by ring
    have e2 : g.nn r * g.L * g.M = g.nn r * g.M * g.L := by ring
    omega
  · rw [hx.dir hb]
    exact pk_lt h hx.ri hx.rk

theorem PackEl.snd_lt {r i Q k : ℕ} {x : ℕ × ℕ} (h : g.OK) (hx : PackEl g r i Q k x) : x.2 < g.nn r * g.M * g.L := by
  rw [hx.snd]
  exact row_lt h hx.ri hx.rk

theorem PackEl.inj {r i Q k i' Q' k' : ℕ} {x y : ℕ × ℕ} (h : g.OK) (hx : PackEl g r i Q k x) (hy : PackEl g r i' Q' k' y) (he : x.1 = y.1) :
    i = i' ∧ Q = Q' ∧ k = k' := by
  have hlow : ∀ {i Q k : ℕ} {x : ℕ × ℕ}, PackEl g r i Q k x → (g.a > 1 ∧ r < g.a * g.b ∧ Q < g.a * g.b) → x.1 < g.nn r * (g.m0 * g.L) * (g.a * g.b) := by
    intro i Q k x hx hb
    rw [hx.blk hb]
    obtain ⟨h1, h2⟩ := mod_div_lt hb.2.2
    have hk := hx.rk
    rw [h.mm_eq (Or.inl hb.1) hb.2.2] at hk
    exact bk_lt (n := g.nn r) (B := g.m0 * g.L) h1 hx.ri h2 hk
  have hhigh : ∀ {i Q k : ℕ} {x : ℕ × ℕ}, PackEl g r i Q k x → (g.a > 1 ∧ r < g.a * g.b) → ¬ Q < g.a * g.b → g.nn r * (g.m0 * g.L) * (g.a * g.b) ≤ x.1 := by
    intro i Q k x hx hb hQ
    rw [hx.dir fun hn => hQ hn.2.2]
    have h1 := Nat.mul_le_mul_left (g.nn r * g.L * g.m0) (Nat.not_lt.1 hQ)
    have e1 : g.nn r * g.L * g.m0 * (g.a * g.b) = g.nn r * (g.m0 * g.L) * (g.a * g.b) := by ring
    omega
  by_cases hs : g.a > 1 ∧ r < g.a * g.b
  · by_cases hQ : Q < g.a * g.b
    · by_cases hQ' : Q' < g.a * g.b
      · have hb : g.a > 1 ∧ r < g.a * g.b ∧ Q < g.a * g.b := ⟨hs.1, hs.2, hQ⟩
        have hb' : g.a > 1 ∧ r < g.a * g.b ∧ Q' < g.a * g.b := ⟨hs.1, hs.2, hQ'⟩
        rw [hx.blk hb, hy.blk hb'] at he
        have hk := hx.rk
        rw [h.mm_eq (Or.inl hb.1) hQ] at hk
        have hk' := hy.rk
        rw [h.mm_eq (Or.inl hb.1) hQ'] at hk'
        obtain ⟨a1, a2, a3, a4⟩ := bk_inj hx.ri hy.ri (mod_div_lt hQ).2 (mod_div_lt hQ').2 hk hk' he
        refine ⟨a2, ?_, a4⟩
        rw [← Nat.div_add_mod Q g.b, ← Nat.div_add_mod Q' g.b, a1, a3]
      · have := hlow hx ⟨hs.1, hs.2, hQ⟩
        have := hhigh hy hs hQ'
        omega
    · by_cases hQ' : Q' < g.a * g.b
      · have := hlow hy ⟨hs.1, hs.2, hQ'⟩
        have := hhigh hx hs hQ
        omega
      · rw [hx.dir fun hn => hQ hn.2.2, hy.dir fun hn => hQ' hn.2.2] at he
        exact pk_inj h hx.ri hy.ri hx.rk hy.rk he
  · rw [hx.dir fun hn => hs ⟨hn.1, hn.2.1⟩, hy.dir fun hn => hs ⟨hn.1, hn.2.1⟩] at he
    exact pk_inj h hx.ri hy.ri hx.rk hy.rk he

theorem packs_nodup {r : ℕ} (h : g.OK) (hr : r < g.size) : ((g.packs r).flatten.map (·.1)).Nodup := by
  have hinj : ∀ x ∈ (g.packs r).flatten, ∀ y ∈ (g.packs r).flatten, x.1 = y.1 → x = y := by
    intro x hx y hy he
    obtain ⟨i, Q, k, hE⟩ := (mem_packs h hr x).1 hx
    obtain ⟨i', Q', k', hE'⟩ := (mem_packs h hr y).1 hy
    obtain ⟨rfl, rfl, rfl⟩ := PackEl.inj h hE hE' he
    exact PackEl.eq hE hE'
  have hnd : (g.packs r).flatten.Nodup := by
    unfold packs
    split_ifs with hs hex h2
    · have hb := hs.1
      have hbs := h.ab_size (Or.inl hb)
      have hlow : ∀ x ∈ (g.mt r).packL1, x.2 % (g.M * g.L) < g.a * g.b * (g.m0 * g.L) := by
        intro x hx
        obtain ⟨i, hi, j, hj, v, hv, k, hk, rfl⟩ := mem_packL1.1 hx
        simp only
        rw [packL1_src h hb]
        have h1 : (j * g.b + v) * (g.m0 * g.L) + k < g.a * g.b * (g.m0 * g.L) := rad_lt hk (rad_lt hv hj)
        have h2 : g.a * g.b * (g.m0 * g.L) ≤ g.M * g.L := by
          rw [← Nat.mul_assoc]; exact Nat.mul_le_mul_right _ (h.ab_m (Or.inl hb))
        rw [Nat.add_comm, Nat.add_mul_mod_self_right, Nat.mod_eq_of_lt (by omega)]
        exact h1
      have hmod : ∀ i Q k, k < g.mm Q * g.L → (i * (g.M * g.L) + (Q * (g.m0 * g.L) + k)) % (g.M * g.L) = Q * (g.m0 * g.L) + k := by
        intro i Q k hk
        have := row_lt h (n := 1) (i := 0) (Q := Q) (k := k) (by omega) hk
        rw [Nat.add_comm, Nat.add_mul_mod_self_right, Nat.mod_eq_of_lt (by rw [Nat.zero_mul, Nat.zero_add, Nat.one_mul] at this; exact this)]
      simp only [List.flatten_cons, List.cons_append, List.nil_append, List.flatten_nil, List.append_nil]
      rw [List.nodup_append, List.nodup_append]
      refine ⟨List.Nodup.of_map _ (packL1_nodup r), ⟨List.Nodup.of_map _ (packL2_nodup h r), List.Nodup.of_map _ (packL3_nodup r), ?_⟩, ?_⟩
      · intro x hx y hy he
        obtain ⟨i, hi, Q, q1, q2, k, hk, rfl⟩ := (mem_packL2 h hb).1 hx
        obtain ⟨i', hi', k', hk', rfl⟩ := (mem_packL3 h).1 hy
        have := row_inj h hk hk' (congrArg Prod.snd he)
        omega
      · intro x hx y hy he
        have h1 := hlow x hx
        rw [he] at h1
        rcases List.mem_append.1 hy with hy | hy
        · obtain ⟨i, hi, Q, q1, q2, k, hk, rfl⟩ := (mem_packL2 h hb).1 hy
          simp only at h1
          rw [hmod i Q k hk] at h1
          have := Nat.mul_le_mul_right (g.m0 * g.L) q1
          omega
        · obtain ⟨i, hi, k, hk, rfl⟩ := (mem_packL3 h).1 hy
          simp only at h1
          rw [hmod i g.mlast k hk] at h1
          have := Nat.mul_le_mul_right (g.m0 * g.L) (show g.a * g.b ≤ g.mlast by omega)
          omega
    · have hb := hs.1
      have hlow : ∀ x ∈ (g.mt r).packL1, x.1 < g.nn r * (g.m0 * g.L) * (g.a * g.b) := by
        intro x hx
        obtain ⟨i, hi, j, hj, v, hv, k, hk, rfl⟩ := mem_packL1.1 hx
        simp only
        rw [packL1_dst]
        exact bk_lt hv hi hj hk
      simp only [List.flatten_cons, List.nil_append, List.flatten_nil, List.append_nil]
      rw [List.nodup_append]
      refine ⟨List.Nodup.of_map _ (packL1_nodup r), List.Nodup.of_map _ (packL3_nodup r), ?_⟩
      intro x hx y hy he
      have h1 := hlow x hx
      rw [he] at h1
      obtain ⟨i, hi, k, hk, rfl⟩ := (mem_packL3 h).1 hy
      simp only at h1
      have hle : g.a * g.b ≤ g.mlast := by
        by_contra hcon
        have hbm := h.blockm (Or.inl hb)
        have hMM := h.M
        split_ifs at hbm with hc
        · have h1 : g.a * g.b = g.mlast + 1 := by omega
          have : g.M = g.m0 * g.a * g.b := by
            rw [Nat.mul_assoc, h1, hMM, hc]; ring
          rw [this, Nat.sub_self, Nat.zero_mul] at hex
          omega
        · omega
      have h3 := Nat.mul_le_mul_left (g.nn r * g.L * g.m0) hle
      have e1 : g.nn r * g.L * g.m0 * (g.a * g.b) = g.nn r * (g.m0 * g.L) * (g.a * g.b) := by ring
      omega
    · simp only [List.flatten_cons, List.flatten_nil, List.append_nil]
      exact List.Nodup.of_map _ (packL1_nodup r)
    · simp only [List.flatten_cons, List.flatten_nil, List.append_nil]
      exact List.Nodup.of_map _ (packL_nodup h r)
  exact hnd.map_on fun x hx y hy he => hinj x hx y hy he

theorem flatten_swapL (ls : List (List (ℕ × ℕ))) : (ls.map swapL).flatten = swapL ls.flatten := by
  unfold swapL
  rw [List.map_flatten]

theorem unpacks_nodup {r : ℕ} (h : g.OK) (hr : r < g.size) : (((g.packs r).map swapL).flatten.map (·.1)).Nodup := by
  rw [flatten_swapL]
  refine nodup_snd (packs_nodup h hr) fun x hx y hy he => ?_
  obtain ⟨i, Q, k, hE⟩ := (mem_packs h hr x).1 hx
  obtain ⟨i', Q', k', hE'⟩ := (mem_packs h hr y).1 hy
  rw [hE.snd, hE'.snd] at he
  obtain ⟨rfl, rfl, rfl⟩ := row_inj h hE.rk hE'.rk he
  exact PackEl.eq hE hE'

/-- The packed array and the local array hold the same data: `w` is the packed one. -/
structure Packed (g : Geo) (i : ℕ) (inp wk : ℕ → V) : Prop where
  dir : ∀ Q < g.size, ¬ (g.a > 1 ∧ i < g.a * g.b ∧ Q < g.a * g.b) → ∀ j < g.nn i, ∀ k < g.mm Q * g.L,
    wk (g.nn i * g.L * g.m0 * Q + (j * (g.mm Q * g.L) + k)) = inp (j * (g.M * g.L) + (Q * (g.m0 * g.L) + k))
  blk : g.a > 1 → i < g.a * g.b → ∀ u < g.a, ∀ v < g.b, ∀ j < g.nn i, ∀ k < g.m0 * g.L,
    wk (((v * g.nn i + j) * g.a + u) * (g.m0 * g.L) + k) = inp (j * (g.M * g.L) + ((u * g.b + v) * (g.m0 * g.L) + k))

theorem packed_of {i : ℕ} (h : g.OK) (hi : i < g.size) {inp wk : ℕ → V} (hx : ∀ x ∈ (g.packs i).flatten, wk x.1 = inp x.2) : Packed g i inp wk := by
  constructor
  · intro Q hQ hn j hj k hk
    exact hx (_, _) ((mem_packs h hi _).2 ⟨j, Q, k, hj, hQ, hk, rfl, fun _ => rfl, fun hc => absurd hc hn⟩)
  · intro ha hib u hu v hv j hj k hk
    have hQ : u * g.b + v < g.a * g.b := rad_lt hv hu
    have hbs := h.ab_size (Or.inl ha)
    refine hx (_, _) ((mem_packs h hi _).2 ⟨j, u * g.b + v, k, hj, by omega, by rw [h.mm_eq (Or.inl ha) hQ]; exact hk, rfl,
      fun hn => absurd ⟨ha, hib, hQ⟩ hn, fun _ => ?_⟩)
    simp only
    rw [(uv hv).1, (uv hv).2]

/-- In the uniform case the packed array is a transpose. -/
theorem packed_uniform {i : ℕ} (h : g.OK) (hi : i < g.size) (hu : g.uniform = true) {inp wk : ℕ → V}
    (hx : ∀ r < g.nn i * g.a, ∀ c < g.b, ∀ k < g.m0 * g.L,
      wk ((c * (g.nn i * g.a) + r) * (g.m0 * g.L) + k) = inp ((r * g.b + c) * (g.m0 * g.L) + k)) : Packed g i inp wk := by
  have hab := h.uniform hu
  have hM := h.uniform_M hu
  have hblk : ∀ u < g.a, ∀ v < g.b, ∀ j < g.nn i, ∀ k < g.m0 * g.L,
      wk (((v * g.nn i + j) * g.a + u) * (g.m0 * g.L) + k) = inp (j * (g.M * g.L) + ((u * g.b + v) * (g.m0 * g.L) + k)) := by
    intro u hu v hv j hj k hk
    have := hx (j * g.a + u) (rad_lt hu hj) v hv k hk
    rw [show ((v * g.nn i + j) * g.a + u) = v * (g.nn i * g.a) + (j * g.a + u) by ring, this, hM]
    congr 1
    ring
  constructor
  · intro Q hQ hn j hj k hk
    have ha : g.a = 1 := by
      have := h.a
      by_contra hc
      exact hn ⟨by omega, by omega, by omega⟩
    have hb : g.b = g.size := by rw [ha, Nat.one_mul] at hab; exact hab
    have hmQ : g.mm Q = g.m0 := h.mm_eq (Or.inr hu) (by omega)
    rw [hmQ] at hk ⊢
    have := hblk 0 (by omega) Q (by omega) j hj k hk
    rw [ha] at this
    rw [show g.nn i * g.L * g.m0 * Q + (j * (g.m0 * g.L) + k) = ((Q * g.nn i + j) * 1 + 0) * (g.m0 * g.L) + k by ring, this]
    congr 1
    ring
  · intro _ _
    exact hblk

end Geo
end Fftwpp.Net
