import Verif.Proof.Trans3

/-!
# `localize0` moves every element to its place
-/

namespace Fftwpp.Net
variable {V : Type}

/-- A collective exchange alone. -/
theorem coll_ok {e : Eager} {P : ℕ} {act : ℕ → Prop} {f : ℕ → ℕ → ℕ} {c : ℕ} {ρ : ℕ → ℕ} {sch ip : Bool} {ctx arr count : ℕ} {ws : ℕ → List (ℕ × ℕ)}
    {snd rcv : ℕ → Loc} {k : ℕ → Prog V Unit} {s : St V} (hC : Comm P act f c ρ) (hact : ∀ i, act i → i < P)
    (hout : ip = false → ∀ i < P, act i → (snd i).buf ≠ (rcv i).buf) (hin : ip = true → ∀ i < P, act i → snd i = rcv i)
    (hws1 : ∀ i < P, act i → collWs sch arr c ⊆ ws i)
    (h : Quiet P (fun i => (Prog.calls ((collItems act f c ρ sch ctx arr count i).flatMap fun x => x.ops i (snd i) (rcv i) ip)).bind fun _ =>
      (Prog.calls ((ws i).map fun id => .wait id)).bind fun _ => k i) s)
    (hb3 : ∀ i, act i → ∀ Q < c, ∀ x < count, (s i).loc.inBounds (rcv i + (Q * count + x)))
    (hb4 : ∀ i, act i → ∀ Q < c, ∀ x < count, (s i).loc.inBounds (snd i + (Q * count + x))) :
    ∃ t, Steps e s t ∧ Quiet P k t ∧ (∀ i, (t i).loc.size = (s i).loc.size) ∧
      (∀ i, act i → ∀ Q < c, ∀ x < count, (t i).loc.mem (rcv i + (Q * count + x)) = (s (f i Q)).loc.mem (snd (f i Q) + (ρ i * count + x))) ∧
      ∀ i < P, ∀ a, (act i → ∀ Q < c, ∀ x < count, a ≠ rcv i + (Q * count + x)) → (t i).loc.mem a = (s i).loc.mem a := by
  obtain ⟨t, h1, h2, h3, h4, h5⟩ := exchange_ok (coll_exch hC hws1 hout hin) h
    (fun i _ x hx j hj => by
      obtain ⟨ha, Q, hQ, rfl⟩ := (mem_collItems (hC.lt i)).1 hx
      rw [collItem_rlen] at hj
      rw [collItem_roff]
      exact hb3 i ha Q hQ j hj)
    (fun i _ x hx j hj => by
      obtain ⟨ha, Q, hQ, rfl⟩ := (mem_collItems (hC.lt i)).1 hx
      rw [collItem_slen] at hj
      rw [collItem_soff]
      exact hb4 i ha Q hQ j hj)
  refine ⟨t, h1, h2, h3, ?_, ?_⟩
  · intro i ha Q hQ x hx
    obtain ⟨m1, m2, m3, m4⟩ := hC.mem i ha Q hQ
    have := h4 i (hact i ha) (collItem sch ctx arr c count (ρ i) (f i) Q) ((mem_collItems (hC.lt i)).2 ⟨ha, Q, hQ, rfl⟩)
      (collItem sch ctx arr c count (ρ (f i Q)) (f (f i Q)) (ρ i))
      ((mem_collItems (hC.lt _)).2 ⟨by rw [collItem_peer]; exact m2, ρ i, hC.lt i ha, by rw [collItem_peer]⟩)
      (by rw [collItem_peer, m4 _ (hC.lt i ha), hC.self i ha]) (by rw [collItem_ctx, collItem_ctx]) x (by rw [collItem_rlen]; exact hx)
    rw [collItem_roff, collItem_soff, collItem_peer] at this
    exact this
  · intro i hi a ha2
    refine h5 i hi a fun x hx j hj => ?_
    obtain ⟨ha, Q, hQ, rfl⟩ := (mem_collItems (hC.lt i)).1 hx
    rw [collItem_rlen] at hj
    rw [collItem_roff]
    exact ha2 ha Q hQ j hj

namespace Geo
variable {g : Geo}

theorem ab_out (h : g.OK) {i : ℕ} (hs : g.a > 1 ∧ i < g.a * g.b) : g.a * g.b * (g.n0 * g.m0 * g.L) ≤ g.N * g.mm i * g.L := by
  rw [h.mm_eq (Or.inl hs.1) hs.2]
  have := h.ab_n (Or.inl hs.1)
  calc g.a * g.b * (g.n0 * g.m0 * g.L) = g.a * g.b * g.n0 * (g.m0 * g.L) := by ring
    _ ≤ g.N * (g.m0 * g.L) := Nat.mul_le_mul_right _ this
    _ = _ := by ring

theorem ab_wk (h : g.OK) {i : ℕ} (hs : g.a > 1 ∧ i < g.a * g.b) : g.a * g.b * (g.n0 * g.m0 * g.L) ≤ g.nn i * g.M * g.L := by
  rw [h.nn_eq (Or.inl hs.1) hs.2]
  have := h.ab_m (Or.inl hs.1)
  calc g.a * g.b * (g.n0 * g.m0 * g.L) = g.a * g.b * g.m0 * (g.n0 * g.L) := by ring
    _ ≤ g.M * (g.n0 * g.L) := Nat.mul_le_mul_right _ this
    _ = _ := by ring

theorem K_out (h : g.OK) {i : ℕ} (hi : i < g.K) : g.K * (g.n0 * g.m0 * g.L) ≤ g.N * g.mm i * g.L := by
  rw [(K_eq h hi).2]
  have hK : g.K * g.n0 ≤ g.N := by
    unfold K
    split_ifs with h2 h3 h4
    · exact h.ab_n (Or.inl h2)
    · rw [← h.uniform h3]; exact h.ab_n (Or.inr h3)
    · omega
    · rw [h.N]
      have : min g.nlast g.mlast * g.n0 ≤ g.nlast * g.n0 := Nat.mul_le_mul_right _ (min_le_left _ _)
      omega
  calc g.K * (g.n0 * g.m0 * g.L) = g.K * g.n0 * (g.m0 * g.L) := by ring
    _ ≤ g.N * (g.m0 * g.L) := Nat.mul_le_mul_right _ hK
    _ = _ := by ring

theorem K_wk (h : g.OK) {i : ℕ} (hi : i < g.K) : g.K * (g.n0 * g.m0 * g.L) ≤ g.nn i * g.M * g.L := by
  rw [(K_eq h hi).1]
  have hK : g.K * g.m0 ≤ g.M := by
    unfold K
    split_ifs with h2 h3 h4
    · exact h.ab_m (Or.inl h2)
    · rw [← h.uniform h3]; exact h.ab_m (Or.inr h3)
    · omega
    · rw [h.M]
      have : min g.nlast g.mlast * g.m0 ≤ g.mlast * g.m0 := Nat.mul_le_mul_right _ (min_le_right _ _)
      omega
  calc g.K * (g.n0 * g.m0 * g.L) = g.K * g.m0 * (g.n0 * g.L) := by ring
    _ ≤ g.M * (g.n0 * g.L) := Nat.mul_le_mul_right _ hK
    _ = _ := by ring

theorem dir_out (h : g.OK) {i Q x : ℕ} (hx : x < g.mm i * g.L * g.nn Q) : g.mm i * g.L * g.n0 * Q + x < g.N * g.mm i * g.L := by
  rcases h.nn_N Q with h0 | h0
  · rw [h0] at hx; omega
  · have : g.mm i * g.L * (Q * g.n0 + g.nn Q) ≤ g.mm i * g.L * g.N := Nat.mul_le_mul_left _ h0
    calc g.mm i * g.L * g.n0 * Q + x < g.mm i * g.L * g.n0 * Q + g.mm i * g.L * g.nn Q := by omega
      _ = g.mm i * g.L * (Q * g.n0 + g.nn Q) := by ring
      _ ≤ g.mm i * g.L * g.N := this
      _ = _ := by ring

theorem dir_wk (h : g.OK) {i Q x : ℕ} (hx : x < g.mm Q * g.L * g.nn i) : g.nn i * g.L * g.m0 * Q + x < g.nn i * g.M * g.L := by
  rcases h.mm_M Q with h0 | h0
  · rw [h0] at hx; omega
  · have : g.nn i * g.L * (Q * g.m0 + g.mm Q) ≤ g.nn i * g.L * g.M := Nat.mul_le_mul_left _ h0
    calc g.nn i * g.L * g.m0 * Q + x < g.nn i * g.L * g.m0 * Q + g.mm Q * g.L * g.nn i := by omega
      _ = g.nn i * g.L * (Q * g.m0 + g.mm Q) := by ring
      _ ≤ g.nn i * g.L * g.M := this
      _ = _ := by ring

/-- The buffers of the processes: `inp`, `out` and the work array `wrk`. -/
structure Bufs (g : Geo) (inp out wrk : ℕ → Loc) (σ : ℕ → Local V) : Prop where
  wrkSize : ∀ i < g.size, (wrk i).off + g.nn i * g.M * g.L ≤ (σ i).size (wrk i).buf
  inwrk : ∀ i < g.size, (inp i).buf ≠ (wrk i).buf
  outwrk : ∀ i < g.size, (out i).buf ≠ (wrk i).buf
  same : ∀ i < g.size, inp i = out i ∨ (inp i).buf ≠ (out i).buf
  compact : g.compact = true → ∀ i < g.size, inp i = out i

/-- The work array in use. -/
def wk (g : Geo) (out wrk : ℕ → Loc) (i : ℕ) : Loc := if g.compact = true then out i else wrk i

theorem sub_size (h : g.OK) {i : ℕ} (hs : g.a > 1 ∧ i < g.a * g.b) : i < g.size := by
  have := h.ab_size (Or.inl hs.1)
  omega

theorem coll1_nil {i : ℕ} (hs : ¬ (g.a > 1 ∧ i < g.a * g.b)) : g.coll1 i = [] := by
  unfold coll1 collItems
  rw [if_neg hs]

/-- The data after the outward exchange. -/
def OutData (g : Geo) (inp out : ℕ → Loc) (s t : ℕ → Local V) : Prop :=
  ∀ r < g.size, ∀ p < g.size, ∀ j < g.nn p, ∀ k < g.mm r * g.L,
    (t r).mem (out r + ((p * g.n0 + j) * (g.mm r * g.L) + k)) = (s p).mem (inp p + (j * (g.M * g.L) + (r * (g.m0 * g.L) + k)))

theorem localize0_core {e : Eager} {P : ℕ} {inp out wrk : ℕ → Loc} {s : St V} {k : ℕ → Prog V Unit} (h : g.OK) (h1 : g.size ≠ 1) (hP : g.size ≤ P)
    (hb : Bufs g inp out wrk (fun i => (s i).loc)) (hinS : ∀ i < g.size, (inp i).off + g.nn i * g.M * g.L ≤ (s i).loc.size (inp i).buf)
    (houtS : ∀ i < g.size, (out i).off + g.N * g.mm i * g.L ≤ (s i).loc.size (out i).buf)
    (hq : Quiet P (fun i => ((g.mt i).localize0 (inp i) (out i) (wrk i)).bind fun _ => k i) s) :
    ∃ t, Steps e s t ∧ Quiet P k t ∧ (∀ i, (t i).loc.size = (s i).loc.size) ∧
      OutData g inp out (fun i => (s i).loc) (fun i => (t i).loc) ∧
      ∀ i < P, ∀ a, (i < g.size → ¬ (Region.mk (out i) (g.N * g.mm i * g.L)).has a ∧ ¬ (Region.mk (wrk i) (g.nn i * g.M * g.L)).has a) →
        (t i).loc.mem a = (s i).loc.mem a := by
  have hwc : ∀ i < g.size, decide (g.wk out wrk i = out i) = g.compact := by
    intro i hi
    unfold wk
    by_cases hc : g.compact = true
    · simp [hc]
    · rw [if_neg hc]
      have : ¬ wrk i = out i := fun he => hb.outwrk i hi (by rw [he])
      simp [this, show g.compact = false by simpa using hc]
  have hwS : ∀ i < g.size, (g.wk out wrk i).off + g.nn i * g.M * g.L ≤ (s i).loc.size (g.wk out wrk i).buf := by
    intro i hi
    unfold wk
    split_ifs with hc
    · rw [← (uniform_size h (h.compact hc).1 hi).2.2.2]; exact houtS i hi
    · exact hb.wrkSize i hi
  have hwi : g.compact = true → ∀ i < g.size, inp i = g.wk out wrk i := by
    intro hc i hi
    unfold wk
    rw [if_pos hc]; exact hb.compact hc i hi
  have hwo : g.compact = true → ∀ i, g.wk out wrk i = out i := by
    intro hc i
    unfold wk
    rw [if_pos hc]
  have hwi' : g.compact = false → ∀ i < g.size, (inp i).buf ≠ (g.wk out wrk i).buf := by
    intro hc i hi
    unfold wk
    rw [if_neg (by simp [hc])]; exact hb.inwrk i hi
  have hwo' : g.compact = false → ∀ i < g.size, (g.wk out wrk i).buf ≠ (out i).buf := by
    intro hc i hi
    unfold wk
    rw [if_neg (by simp [hc])]; exact (hb.outwrk i hi).symm
  have hwf : ∀ i < g.size, ∀ a, ¬ (Region.mk (out i) (g.N * g.mm i * g.L)).has a → ¬ (Region.mk (wrk i) (g.nn i * g.M * g.L)).has a →
      ¬ (Region.mk (g.wk out wrk i) (g.nn i * g.M * g.L)).has a := by
    intro i hi a ha1 ha2
    unfold wk
    split_ifs with hc
    · rw [← (uniform_size h (h.compact hc).1 hi).2.2.2]; exact ha1
    · exact ha2
  generalize hwk : g.wk out wrk = w at *
  have hweq : ∀ i, w i = if g.compact = true then out i else wrk i := by intro i; rw [← hwk]; rfl
  -- normal form
  have hq' : Quiet P (fun i => (if i < g.size then (g.mt i).packP (inp i) (w i) else .ret ()).bind fun _ =>
      (Prog.calls ((g.coll1 i).flatMap fun x => x.ops i (w i) (out i) g.compact)).bind fun _ => (waits (g.ws1 i)).bind fun _ =>
      (g.midP i (out i) (w i)).bind fun _ =>
      (Prog.calls ((mixItems (!decide (g.a > 1)) g.coll2 g.dirO i).flatMap fun x => x.ops i (w i) (out i) g.compact)).bind fun _ =>
      (waits (g.wsO i)).bind fun _ => k i) s := by
    refine ⟨fun i hi => ?_, hq.done, hq.req, hq.bal⟩
    rw [hq.prog i hi]
    by_cases his : i < g.size
    · rw [if_pos his]
      rw [localize0_eq h h1 his (hweq i) (hwc i his)]
      simp only [Prog.bind_assoc, ret_bind]
    · have hs : ¬ (g.a > 1 ∧ i < g.a * g.b) := fun hh => his (sub_size h hh)
      have hK := K_le h
      have hr : (g.mt i).rank ≥ (g.mt i).size := by show i ≥ g.size; omega
      have e1 : mixItems (!decide (g.a > 1)) g.coll2 g.dirO i = [] := by
        unfold mixItems
        rw [coll2_nil (by omega)]
        have : g.dirO i = [] := by unfold dirO dirItems; rw [if_neg his]
        rw [this]; simp
      have e2 : g.wsO i = [] := by unfold wsO; rw [if_neg his]
      have e3 : g.ws1 i = [] := if_neg hs
      have e4 : (g.midP i (out i) (w i) : Prog V Unit) = .ret () := if_neg hs
      rw [if_neg his, coll1_nil hs, e1, e2, e3, e4]
      have hs' : ¬ (g.mt i).subblock = true := fun hh => hs ((sub_iff i).1 hh)
      unfold MT.localize0 MT.outphase0 MT.outsync0
      simp only [hs', if_pos hr, if_false, Bool.false_eq_true]
      rfl
  -- packing
  obtain ⟨t1, st1, q1, z1, d1⟩ := local_phase (e := e) hq' (R := fun i m => (i < g.size → Packed g i (fun x => (s i).loc.mem (inp i + x)) (fun x => m (w i + x))) ∧
      ∀ a, (i < g.size → ¬ (Region.mk (w i) (g.nn i * g.M * g.L)).has a) → m a = (s i).loc.mem a) (by
    intro i hi
    by_cases his : i < g.size
    · obtain ⟨m, m1, m2, m3⟩ := pack_ok (e := e) (env := fun j => (s j).loc) h his (hq.req i hi) (inp := inp i) (wk := w i) (fun hc => hwi hc i his)
        (fun hc => hwi' hc i his) (hinS i his) (hwS i his)
      rw [if_pos his]
      exact ⟨m, m1, fun _ => m2, fun a ha => m3 a (ha his)⟩
    · rw [if_neg his]
      exact ⟨(s i).loc.mem, rfl, fun hh => absurd hh his, fun _ _ => rfl⟩)
  -- first stage
  have hc1 : g.b * (g.n0 * g.m0 * g.a * g.L) = g.a * g.b * (g.n0 * g.m0 * g.L) := by ring
  have lt1 : ∀ {Q x}, Q < g.b → x < g.n0 * g.m0 * g.a * g.L → Q * (g.n0 * g.m0 * g.a * g.L) + x < g.a * g.b * (g.n0 * g.m0 * g.L) := by
    intro Q x hQ hx
    rw [← hc1]; exact rad_lt hx hQ
  obtain ⟨t2, st2, q2, z2, d2, f2⟩ := coll_ok (e := e) (comm1 h hP) (fun i hi => lt_of_lt_of_le (sub_size h hi) hP)
    (fun hc i _ hs => hwo' hc i (sub_size h hs)) (fun hc i _ hs => hwo hc i) (ws := g.ws1) (fun i _ hs => by
      unfold ws1
      rw [if_pos hs]
      exact fun x hx => hx) q1
    (fun i hs Q hQ x hx => inB (n := g.N * g.mm i * g.L) (by rw [z1]; exact houtS i (sub_size h hs)) (lt_of_lt_of_le (lt1 hQ hx) (ab_out h hs)))
    (fun i hs Q hQ x hx => inB (n := g.nn i * g.M * g.L) (by rw [z1]; exact hwS i (sub_size h hs)) (lt_of_lt_of_le (lt1 hQ hx) (ab_wk h hs)))
  -- transpose
  have hc3 : ∀ i, g.a > 1 ∧ i < g.a * g.b → g.nn i * g.b * g.a * (g.mm i * g.L) = g.a * g.b * (g.n0 * g.m0 * g.L) := by
    intro i hs
    rw [h.nn_eq (Or.inl hs.1) hs.2, h.mm_eq (Or.inl hs.1) hs.2]; ring
  obtain ⟨t3, st3, q3, z3, d3⟩ := local_phase (e := e) q2 (R := fun i m => (g.a > 1 ∧ i < g.a * g.b →
        ∀ r < g.n0 * g.b, ∀ c < g.a, ∀ k < g.m0 * g.L, m (w i + ((c * (g.n0 * g.b) + r) * (g.m0 * g.L) + k)) =
          (t2 i).loc.mem (out i + ((r * g.a + c) * (g.m0 * g.L) + k))) ∧
      ∀ a, (g.a > 1 ∧ i < g.a * g.b → ¬ (Region.mk (w i) (g.a * g.b * (g.n0 * g.m0 * g.L))).has a) → m a = (t2 i).loc.mem a) (by
    intro i hi
    unfold midP
    by_cases hs : g.a > 1 ∧ i < g.a * g.b
    · have his := sub_size h hs
      obtain ⟨m, m1, m2, m3⟩ := transpose_ok (e := e) (i := i) (env := fun j => (t2 j).loc) (q2.req i hi) (rows := g.nn i * g.b) (cols := g.a)
        (length := g.mm i * g.L) (ip := g.compact) (s := out i) (d := w i) (fun hc => (hwo hc i).symm) (fun hc => (hwo' hc i his).symm)
        (by rw [hc3 i hs, z2, z1]; have := hwS i his; have := ab_wk h hs; omega)
        (by rw [hc3 i hs, z2, z1]; have := houtS i his; have := ab_out h hs; omega)
      rw [if_pos hs]
      refine ⟨m, m1, fun _ => ?_, fun a ha => m3 a ?_⟩
      · rw [h.nn_eq (Or.inl hs.1) hs.2, h.mm_eq (Or.inl hs.1) hs.2] at m2
        exact m2
      · rw [hc3 i hs]; exact ha hs
    · rw [if_neg hs]
      exact ⟨(t2 i).loc.mem, rfl, fun hh => absurd hh hs, fun _ _ => rfl⟩)
  have z3' : ∀ i, (t3 i).loc.size = (s i).loc.size := fun i => by rw [z3, z2, z1]
  -- second stage
  have hK := K_le h
  have lt2 : ∀ {Q x}, Q < g.c2 → x < g.cnt2 → Q * g.cnt2 + x < g.K * (g.n0 * g.m0 * g.L) := by
    intro Q x hQ hx
    rw [← cnt_K]; exact rad_lt hx hQ
  obtain ⟨t4, st4, q4, z4, d4, d4', f4⟩ := mix_ok (e := e) (size := g.size) (K := g.K) (act := (· < g.K)) (ws := g.wsO) (snd := w) (rcv := out)
    (R := fun i => g.mm i * g.L * g.n0) (S := fun i => g.nn i * g.L * g.m0) (rl := fun i Q => g.mm i * g.L * g.nn Q)
    (k := k) hP (comm2 h hP) (fun i hi => ⟨hi, by omega⟩)
    (fun i _ Q _ => Nat.mul_le_mul_left _ (h.nn_le Q))
    (fun i hi => by
      rw [cnt_K, (K_eq h hi).2]
      apply le_of_eq; ring)
    (by unfold collCtx ctx2; split_ifs <;> omega) (by unfold collArr arr2; split_ifs <;> omega)
    (fun hc => by rw [K_uniform h (h.compact hc).1]) (fun hc i hi => hwo' hc i hi) (fun hc i _ => hwo hc i)
    (fun i _ hi x hx => by
      unfold wsO
      rw [if_pos (by omega), if_pos hi]
      exact List.mem_append_right _ hx)
    (fun i hi x hx => by
      unfold wsO
      rw [if_pos hi]
      by_cases hu : g.uniform = true
      · have : dirWs g.size g.K i = [] := by
          unfold dirWs
          rw [K_uniform h hu, if_neg (by omega)]
          simp
        rw [this] at hx
        simp at hx
      · rw [if_neg hu]
        exact List.mem_append_left _ hx)
    q3
    (fun i hi Q hQ _ x hx => inB (n := g.N * g.mm i * g.L) (by rw [z3']; exact houtS i hi) (dir_out h hx))
    (fun i hi Q hQ _ x hx => inB (n := g.nn i * g.M * g.L) (by rw [z3']; exact hwS i hi) (dir_wk h hx))
    (fun i hi Q hQ x hx => inB (n := g.N * g.mm i * g.L) (by rw [z3']; exact houtS i (by omega)) (lt_of_lt_of_le (lt2 hQ hx) (K_out h hi)))
    (fun i hi Q hQ x hx => inB (n := g.nn i * g.M * g.L) (by rw [z3']; exact hwS i (by omega)) (lt_of_lt_of_le (lt2 hQ hx) (K_wk h hi)))
  refine ⟨t4, ((st1.trans st2).trans st3).trans st4, q4, fun i => by rw [z4, z3'], ?_, ?_⟩
  · intro r hr p hp j hj k hk
    by_cases hrp : r < g.K ∧ p < g.K
    swap
    · -- direct
      have hx : j * (g.mm r * g.L) + k < g.mm r * g.L * g.nn p := by
        rw [Nat.mul_comm (g.mm r * g.L)]; exact rad_lt hk hj
      have e4 := d4 r hr p hp (by omega) _ hx
      have hu : ¬ g.uniform = true := fun hu => hrp (by rw [K_uniform h hu]; exact ⟨hr, hp⟩)
      have hc := not_compact h hu
      have hnb : ¬ (g.a > 1 ∧ p < g.a * g.b ∧ r < g.a * g.b) := by
        rintro ⟨x1, x2, x3⟩
        apply hrp
        rw [K, if_pos x1]; exact ⟨x3, x2⟩
      have e3 : (t3 p).loc.mem (w p + (g.nn p * g.L * g.m0 * r + (j * (g.mm r * g.L) + k))) =
          (t2 p).loc.mem (w p + (g.nn p * g.L * g.m0 * r + (j * (g.mm r * g.L) + k))) := by
        refine (d3 p (by omega)).2 _ fun hs hh => ?_
        obtain ⟨y, hy, he⟩ := region_has.1 hh
        have he' : g.nn p * g.L * g.m0 * r + (j * (g.mm r * g.L) + k) = y := by
          have := congrArg Loc.off he
          simp only [Loc.add_off] at this
          omega
        have hra : g.a * g.b ≤ r := by
          by_contra hh
          exact hnb ⟨hs.1, hs.2, by omega⟩
        have : g.n0 * g.L * g.m0 * (g.a * g.b) ≤ g.n0 * g.L * g.m0 * r := Nat.mul_le_mul_left _ hra
        rw [h.nn_eq (Or.inl hs.1) hs.2] at he'
        have e5 : g.a * g.b * (g.n0 * g.m0 * g.L) = g.n0 * g.L * g.m0 * (g.a * g.b) := by ring
        omega
      have e2 : (t2 p).loc.mem (w p + (g.nn p * g.L * g.m0 * r + (j * (g.mm r * g.L) + k))) =
          (t1 p).loc.mem (w p + (g.nn p * g.L * g.m0 * r + (j * (g.mm r * g.L) + k))) := by
        refine f2 p (by omega) _ fun hs Q _ x _ he => ?_
        exact hwo' hc p hp (by simpa using congrArg Loc.buf he)
      have e1 := ((d1 p (by omega)).1 hp).dir r hr hnb j hj k hk
      rw [e3, e2, e1] at e4
      rw [← e4]
      congr 2
      ring
    · obtain ⟨hrK, hpK⟩ := hrp
      rw [(K_eq h hrK).2] at hk ⊢
      rw [(K_eq h hpK).1] at hj
      by_cases ha : g.a > 1
      · -- blocked
        have hKe : g.K = g.a * g.b := if_pos ha
        rw [hKe] at hrK hpK
        obtain ⟨hvr, hur⟩ := mod_div_lt hrK
        obtain ⟨hvp, hup⟩ := mod_div_lt hpK
        have hpe : p / g.b * g.b + p % g.b = p := by rw [Nat.mul_comm]; exact Nat.div_add_mod p g.b
        have hre : r / g.b * g.b + r % g.b = r := by rw [Nat.mul_comm]; exact Nat.div_add_mod r g.b
        have hc2 : g.cnt2 = g.n0 * g.b * (g.m0 * g.L) := by unfold cnt2; rw [if_pos ha]; ring
        have hcc : g.c2 = g.a := if_pos ha
        have hx : (p % g.b * g.n0 + j) * (g.m0 * g.L) + k < g.cnt2 := by
          rw [hc2]
          have : p % g.b * g.n0 + j < g.n0 * g.b := by rw [Nat.mul_comm g.n0]; exact rad_lt hj hvp
          exact rad_lt hk this
        have e4 := d4' r (by omega) (p / g.b) (by omega) _ hx
        -- the process holding it
        have hq1 : p / g.b * g.b + r % g.b < g.a * g.b := rad_lt hvr hup
        obtain ⟨m1, m2⟩ := uv (u := p / g.b) hvr
        rw [show g.f2 r (p / g.b) = p / g.b * g.b + r % g.b from if_pos ha, show g.r2 r = r / g.b from if_pos ha] at e4
        have hqs := sub_size h ⟨ha, hq1⟩
        have e3 := (d3 (p / g.b * g.b + r % g.b) (by omega)).1 ⟨ha, hq1⟩ (p % g.b * g.n0 + j) (by rw [Nat.mul_comm g.n0]; exact rad_lt hj hvp) (r / g.b) hur k hk
        have hx1 : (j * g.a + r / g.b) * (g.m0 * g.L) + k < g.n0 * g.m0 * g.a * g.L := by
          have : j * g.a + r / g.b < g.n0 * g.a := rad_lt hur hj
          have := rad_lt hk this
          calc _ < _ := this
            _ = _ := by ring
        have e2 := d2 (p / g.b * g.b + r % g.b) ⟨ha, hq1⟩ (p % g.b) hvp _ hx1
        rw [m2, m1, hpe] at e2
        have e1 := ((d1 p (by omega)).1 hp).blk ha hpK (r / g.b) hur (r % g.b) hvr j (by rw [(K_eq h (by omega)).1]; exact hj) k hk
        rw [(K_eq h (by omega)).1, hre] at e1
        have a4 : (p * g.n0 + j) * (g.m0 * g.L) + k = p / g.b * g.cnt2 + ((p % g.b * g.n0 + j) * (g.m0 * g.L) + k) := by
          rw [hc2]
          conv_lhs => rw [← hpe]
          ring
        have a3 : r / g.b * g.cnt2 + ((p % g.b * g.n0 + j) * (g.m0 * g.L) + k) =
            (r / g.b * (g.n0 * g.b) + (p % g.b * g.n0 + j)) * (g.m0 * g.L) + k := by rw [hc2]; ring
        have a2 : ((p % g.b * g.n0 + j) * g.a + r / g.b) * (g.m0 * g.L) + k =
            p % g.b * (g.n0 * g.m0 * g.a * g.L) + ((j * g.a + r / g.b) * (g.m0 * g.L) + k) := by ring
        have a1 : r % g.b * (g.n0 * g.m0 * g.a * g.L) + ((j * g.a + r / g.b) * (g.m0 * g.L) + k) =
            ((r % g.b * g.n0 + j) * g.a + r / g.b) * (g.m0 * g.L) + k := by ring
        rw [a4, e4, a3, e3, a2, e2, a1, e1]
      · have hcc : g.c2 = g.K := if_neg ha
        have hc2 : g.cnt2 = g.n0 * (g.m0 * g.L) := by unfold cnt2; rw [if_neg ha]; ring
        have hx : j * (g.m0 * g.L) + k < g.cnt2 := by rw [hc2]; exact rad_lt hk hj
        have e4 := d4' r hrK p (by omega) _ hx
        rw [show g.f2 r p = p from if_neg ha, show g.r2 r = r from if_neg ha] at e4
        have hns : ¬ (g.a > 1 ∧ p < g.a * g.b) := fun hh => ha hh.1
        have e1 := ((d1 p (by omega)).1 hp).dir r hr (fun hh => ha hh.1) j (by rw [(K_eq h hpK).1]; exact hj) k (by rw [(K_eq h hrK).2]; exact hk)
        rw [(K_eq h hrK).2, (K_eq h hpK).1] at e1
        have a4 : (p * g.n0 + j) * (g.m0 * g.L) + k = p * g.cnt2 + (j * (g.m0 * g.L) + k) := by rw [hc2]; ring
        have a3 : r * g.cnt2 + (j * (g.m0 * g.L) + k) = g.n0 * g.L * g.m0 * r + (j * (g.m0 * g.L) + k) := by rw [hc2]; ring
        rw [a4, e4, (d3 p (by omega)).2 _ (fun hh => absurd hh hns), f2 p (by omega) _ (fun hh => absurd hh hns), a3, e1]
  · intro i hi a ha
    rw [f4 i hi a, (d3 i hi).2 a, f2 i hi a, (d1 i hi).2 a]
    · intro his; exact hwf i his a (ha his).1 (ha his).2
    · rintro hs Q hQ x hx rfl
      have := (ha (sub_size h hs)).1
      exact this (region_has.2 ⟨_, lt_of_lt_of_le (lt1 hQ hx) (ab_out h hs), rfl⟩)
    · intro hs hh
      have := hwf i (sub_size h hs) a (ha (sub_size h hs)).1 (ha (sub_size h hs)).2
      obtain ⟨y, hy, rfl⟩ := region_has.1 hh
      exact this (region_has.2 ⟨y, lt_of_lt_of_le hy (ab_wk h hs), rfl⟩)
    · rintro his Q hQ _ x hx rfl
      exact (ha his).1 (region_has.2 ⟨_, dir_out h hx, rfl⟩)
    · rintro hik Q hQ x hx rfl
      exact (ha (by omega)).1 (region_has.2 ⟨_, lt_of_lt_of_le (lt2 hQ hx) (K_out h hik), rfl⟩)

end Geo
end Fftwpp.Net
