import Verif.Proof.Trans4

/-!
# `localize1` moves every element to its place
-/

namespace Fftwpp.Net
variable {V : Type}

namespace Geo
variable {g : Geo}

/-- The data after the inward exchange. -/
def InData (g : Geo) (inp out : ℕ → Loc) (s t : ℕ → Local V) : Prop :=
  ∀ r < g.size, ∀ p < g.size, ∀ j < g.nn r, ∀ k < g.mm p * g.L,
    (t r).mem (out r + (j * (g.M * g.L) + (p * (g.m0 * g.L) + k))) = (s p).mem (inp p + ((r * g.n0 + j) * (g.mm p * g.L) + k))

theorem localize1_core {e : Eager} {P : ℕ} {inp out wrk : ℕ → Loc} {s : St V} {k : ℕ → Prog V Unit} (h : g.OK) (h1 : g.size ≠ 1) (hP : g.size ≤ P)
    (hb : Bufs g inp out wrk (fun i => (s i).loc)) (hinS : ∀ i < g.size, (inp i).off + g.N * g.mm i * g.L ≤ (s i).loc.size (inp i).buf)
    (houtS : ∀ i < g.size, (out i).off + g.nn i * g.M * g.L ≤ (s i).loc.size (out i).buf)
    (hq : Quiet P (fun i => ((g.mt i).localize1 (inp i) (out i) (wrk i)).bind fun _ => k i) s) :
    ∃ t, Steps e s t ∧ Quiet P k t ∧ (∀ i, (t i).loc.size = (s i).loc.size) ∧
      InData g inp out (fun i => (s i).loc) (fun i => (t i).loc) ∧
      ∀ i < P, ∀ a, (i < g.size → ¬ (Region.mk (out i) (g.nn i * g.M * g.L)).has a ∧ ¬ (Region.mk (wrk i) (g.nn i * g.M * g.L)).has a) →
        (t i).loc.mem a = (s i).loc.mem a := by
  have hwc : ∀ i < g.size, decide (out i = g.wk out wrk i) = g.compact := by
    intro i hi
    unfold wk
    by_cases hc : g.compact = true
    · simp [hc]
    · rw [if_neg hc]
      have : ¬ out i = wrk i := fun he => hb.outwrk i hi (by rw [he])
      simp [this, show g.compact = false by simpa using hc]
  have hwc' : ∀ i < g.size, decide (inp i = g.wk out wrk i) = g.compact := by
    intro i hi
    unfold wk
    by_cases hc : g.compact = true
    · simp [hc, hb.compact hc i hi]
    · rw [if_neg hc]
      have : ¬ inp i = wrk i := fun he => hb.inwrk i hi (by rw [he])
      simp [this, show g.compact = false by simpa using hc]
  have hwS : ∀ i < g.size, (g.wk out wrk i).off + g.nn i * g.M * g.L ≤ (s i).loc.size (g.wk out wrk i).buf := by
    intro i hi
    unfold wk
    split_ifs with hc
    · exact houtS i hi
    · exact hb.wrkSize i hi
  have hwi : g.compact = true → ∀ i < g.size, inp i = g.wk out wrk i := by
    intro hc i hi
    unfold wk
    rw [if_pos hc]; exact hb.compact hc i hi
  have hwo : g.compact = true → ∀ i, g.wk out wrk i = out i := by
    intro hc i
    unfold wk
    rw [if_pos hc]
  have hwi' : g.compact = false → ∀ i < g.size, (inp i).buf ≠ (g.wk out wrk i).buf := by
    intro hc i hi
    unfold wk
    rw [if_neg (by simp [hc])]; exact hb.inwrk i hi
  have hwo' : g.compact = false → ∀ i < g.size, (g.wk out wrk i).buf ≠ (out i).buf := by
    intro hc i hi
    unfold wk
    rw [if_neg (by simp [hc])]; exact (hb.outwrk i hi).symm
  have hwf : ∀ i < g.size, ∀ a, ¬ (Region.mk (out i) (g.nn i * g.M * g.L)).has a → ¬ (Region.mk (wrk i) (g.nn i * g.M * g.L)).has a →
      ¬ (Region.mk (g.wk out wrk i) (g.nn i * g.M * g.L)).has a := by
    intro i hi a ha1 ha2
    unfold wk
    split_ifs with hc
    · exact ha1
    · exact ha2
  generalize hwk : g.wk out wrk = w at *
  have hweq : ∀ i, w i = if g.compact = true then out i else wrk i := by intro i; rw [← hwk]; rfl
  have hK := K_le h
  -- normal form
  have hq' : Quiet P (fun i => (Prog.calls ((mixItems true g.coll2 g.dirI i).flatMap fun x => x.ops i (inp i) (w i) g.compact)).bind fun _ =>
      (waits (g.wsI i)).bind fun _ => (g.midI i (out i) (w i)).bind fun _ =>
      (Prog.calls ((g.coll1 i).flatMap fun x => x.ops i (out i) (w i) g.compact)).bind fun _ => (waits (g.ws1 i)).bind fun _ => 
      (if i < g.size then (g.mt i).unpackP (out i) (w i) else .ret ()).bind fun _ => k i) s := by
    refine ⟨fun i hi => ?_, hq.done, hq.req, hq.bal⟩
    rw [hq.prog i hi]
    by_cases his : i < g.size
    · rw [if_pos his]
      rw [localize1_eq h h1 his (hweq i) (hwc i his) (hwc' i his)]
      simp only [Prog.bind_assoc, ret_bind]
    · have hs : ¬ (g.a > 1 ∧ i < g.a * g.b) := fun hh => his (sub_size h hh)
      have hr : (g.mt i).rank ≥ (g.mt i).size := by show i ≥ g.size; omega
      have e1 : mixItems true g.coll2 g.dirI i = [] := by
        unfold mixItems
        rw [coll2_nil (by omega)]
        have : g.dirI i = [] := by unfold dirI dirItems; rw [if_neg his]
        rw [this]; simp
      have e2 : g.wsI i = [] := by unfold wsI; rw [if_neg his]
      have e3 : g.ws1 i = [] := if_neg hs
      have e4 : (g.midI i (out i) (w i) : Prog V Unit) = .ret () := if_neg hs
      rw [if_neg his, coll1_nil hs, e1, e2, e3, e4]
      unfold MT.localize1 MT.inphase0 MT.insync0 MT.inphase1 MT.insync1 MT.inpost
      simp only [if_pos hr, if_pos (show (g.mt i).size = 1 ∨ (g.mt i).rank ≥ (g.mt i).size from Or.inr hr)]
      rfl
  -- second-stage exchange
  have lt2 : ∀ {Q x}, Q < g.c2 → x < g.cnt2 → Q * g.cnt2 + x < g.K * (g.n0 * g.m0 * g.L) := by
    intro Q x hQ hx
    rw [← cnt_K]; exact rad_lt hx hQ
  have cm : ∀ i Q x, x < g.nn i * g.L * g.mm Q → x < g.mm Q * g.L * g.nn i := by
    intro i Q x hx
    have : g.nn i * g.L * g.mm Q = g.mm Q * g.L * g.nn i := by ring
    omega
  obtain ⟨t1, st1, q1, z1, d1, d1', f1⟩ := mix_ok (e := e) (size := g.size) (K := g.K) (act := (· < g.K)) (ws := g.wsI) (snd := inp) (rcv := w)
    (R := fun i => g.nn i * g.L * g.m0) (S := fun i => g.mm i * g.L * g.n0) (rl := fun i Q => g.nn i * g.L * g.mm Q)
    hP (comm2 h hP) (fun i hi => ⟨hi, by omega⟩)
    (fun i _ Q _ => Nat.mul_le_mul_left _ (h.mm_le Q))
    (fun i hi => by
      rw [cnt_K, (K_eq h hi).1]
      apply le_of_eq; ring)
    (by unfold collCtx ctx2; split_ifs <;> omega) (by unfold collArr arr2; split_ifs <;> omega)
    (fun hc => by rw [K_uniform h (h.compact hc).1]) (fun hc i hi => hwi' hc i hi) (fun hc i hi => hwi hc i hi)
    (fun i _ hi x hx => by
      unfold wsI wsO
      have his : i < g.size := by omega
      simp only [his, hi, if_true]
      split_ifs <;> simp [hx])
    (fun i hi x hx => by
      by_cases hu : g.uniform = true
      · have : dirWs g.size g.K i = [] := by
          unfold dirWs
          rw [K_uniform h hu, if_neg (by omega)]
          simp
        rw [this] at hx
        simp at hx
      · unfold wsI wsO
        rw [if_pos hi, if_pos hi, if_neg hu]
        split_ifs <;> simp [hx])
    hq'
    (fun i hi Q hQ _ x hx => inB (n := g.nn i * g.M * g.L) (hwS i hi) (dir_wk h (cm i Q x hx)))
    (fun i hi Q hQ _ x hx => inB (n := g.N * g.mm i * g.L) (hinS i hi) (dir_out h (cm Q i x hx)))
    (fun i hi Q hQ x hx => inB (n := g.nn i * g.M * g.L) (hwS i (by omega)) (lt_of_lt_of_le (lt2 hQ hx) (K_wk h hi)))
    (fun i hi Q hQ x hx => inB (n := g.N * g.mm i * g.L) (hinS i (by omega)) (lt_of_lt_of_le (lt2 hQ hx) (K_out h hi)))
  -- transpose
  have hc3 : ∀ i, g.a > 1 ∧ i < g.a * g.b → g.a * (g.nn i * g.b) * (g.mm i * g.L) = g.a * g.b * (g.n0 * g.m0 * g.L) := by
    intro i hs
    rw [h.nn_eq (Or.inl hs.1) hs.2, h.mm_eq (Or.inl hs.1) hs.2]; ring
  obtain ⟨t2, st2, q2, z2, d2⟩ := local_phase (e := e) q1 (R := fun i m => (g.a > 1 ∧ i < g.a * g.b →
        ∀ r < g.a, ∀ c < g.n0 * g.b, ∀ k < g.m0 * g.L, m (out i + ((c * g.a + r) * (g.m0 * g.L) + k)) =
          (t1 i).loc.mem (w i + ((r * (g.n0 * g.b) + c) * (g.m0 * g.L) + k))) ∧
      ∀ a, (g.a > 1 ∧ i < g.a * g.b → ¬ (Region.mk (out i) (g.a * g.b * (g.n0 * g.m0 * g.L))).has a) → m a = (t1 i).loc.mem a) (by
    intro i hi
    unfold midI
    by_cases hs : g.a > 1 ∧ i < g.a * g.b
    · have his := sub_size h hs
      obtain ⟨m, m1, m2, m3⟩ := transpose_ok (e := e) (i := i) (env := fun j => (t1 j).loc) (q1.req i hi) (rows := g.a) (cols := g.nn i * g.b)
        (length := g.mm i * g.L) (ip := g.compact) (s := w i) (d := out i) (fun hc => hwo hc i) (fun hc => hwo' hc i his)
        (by rw [hc3 i hs, z1]; have := houtS i his; have := ab_wk h hs; omega)
        (by rw [hc3 i hs, z1]; have := hwS i his; have := ab_wk h hs; omega)
      rw [if_pos hs]
      refine ⟨m, m1, fun _ => ?_, fun a ha => m3 a ?_⟩
      · rw [h.nn_eq (Or.inl hs.1) hs.2, h.mm_eq (Or.inl hs.1) hs.2] at m2
        exact m2
      · rw [hc3 i hs]; exact ha hs
    · rw [if_neg hs]
      exact ⟨(t1 i).loc.mem, rfl, fun hh => absurd hh hs, fun _ _ => rfl⟩)
  have z2' : ∀ i, (t2 i).loc.size = (s i).loc.size := fun i => by rw [z2, z1]
  -- first-stage exchange
  have hc1 : g.b * (g.n0 * g.m0 * g.a * g.L) = g.a * g.b * (g.n0 * g.m0 * g.L) := by ring
  have lt1 : ∀ {Q x}, Q < g.b → x < g.n0 * g.m0 * g.a * g.L → Q * (g.n0 * g.m0 * g.a * g.L) + x < g.a * g.b * (g.n0 * g.m0 * g.L) := by
    intro Q x hQ hx
    rw [← hc1]; exact rad_lt hx hQ
  obtain ⟨t3, st3, q3, z3, d3, f3⟩ := coll_ok (e := e) (comm1 h hP) (fun i hi => lt_of_lt_of_le (sub_size h hi) hP)
    (fun hc i _ hs => (hwo' hc i (sub_size h hs)).symm) (fun hc i _ hs => (hwo hc i).symm) (ws := g.ws1) (fun i _ hs => by
      unfold ws1
      rw [if_pos hs]
      exact fun x hx => hx) q2
    (fun i hs Q hQ x hx => inB (n := g.nn i * g.M * g.L) (by rw [z2']; exact hwS i (sub_size h hs)) (lt_of_lt_of_le (lt1 hQ hx) (ab_wk h hs)))
    (fun i hs Q hQ x hx => inB (n := g.nn i * g.M * g.L) (by rw [z2']; exact houtS i (sub_size h hs)) (lt_of_lt_of_le (lt1 hQ hx) (ab_wk h hs)))
  -- unpacking
  obtain ⟨t4, st4, q4, z4, d4⟩ := local_phase (e := e) q3 (R := fun i m => (i < g.size → Unpacked g i (fun x => (t3 i).loc.mem (w i + x)) (fun x => m (out i + x))) ∧
      ∀ a, (i < g.size → ¬ (Region.mk (out i) (g.nn i * g.M * g.L)).has a) → m a = (t3 i).loc.mem a) (by
    intro i hi
    by_cases his : i < g.size
    · obtain ⟨m, m1, m2, m3⟩ := unpack_ok (e := e) (env := fun j => (t3 j).loc) h his (q3.req i hi) (out := out i) (wk := w i) (fun hc => hwo hc i)
        (fun hc => hwo' hc i his) (by rw [z3, z2']; exact hwS i his) (by rw [z3, z2']; exact houtS i his)
      rw [if_pos his]
      exact ⟨m, m1, fun _ => m2, fun a ha => m3 a (ha his)⟩
    · rw [if_neg his]
      exact ⟨(t3 i).loc.mem, rfl, fun hh => absurd hh his, fun _ _ => rfl⟩)
  refine ⟨t4, ((st1.trans st2).trans st3).trans st4, q4, fun i => by rw [z4, z3, z2'], ?_, ?_⟩
  · intro r hr p hp j hj k hk
    by_cases hrp : r < g.K ∧ p < g.K
    swap
    · -- direct
      have hx : j * (g.mm p * g.L) + k < g.nn r * g.L * g.mm p := by
        have := rad_lt hk hj
        calc _ < _ := this
          _ = _ := by ring
      have e1 := d1 r hr p hp (by omega) _ hx
      have hu : ¬ g.uniform = true := fun hu => hrp (by rw [K_uniform h hu]; exact ⟨hr, hp⟩)
      have hc := not_compact h hu
      have hnb : ¬ (g.a > 1 ∧ r < g.a * g.b ∧ p < g.a * g.b) := by
        rintro ⟨x1, x2, x3⟩
        apply hrp
        rw [K, if_pos x1]; exact ⟨x2, x3⟩
      have e4 := ((d4 r (by omega)).1 hr).dir p hp hnb j hj k hk
      have e3 : (t3 r).loc.mem (w r + (g.nn r * g.L * g.m0 * p + (j * (g.mm p * g.L) + k))) =
          (t2 r).loc.mem (w r + (g.nn r * g.L * g.m0 * p + (j * (g.mm p * g.L) + k))) := by
        refine f3 r (by omega) _ fun hs Q hQ x hx he => ?_
        have he' : g.nn r * g.L * g.m0 * p + (j * (g.mm p * g.L) + k) = Q * (g.n0 * g.m0 * g.a * g.L) + x := by
          have := congrArg Loc.off he
          simp only [Loc.add_off] at this
          omega
        have hra : g.a * g.b ≤ p := by
          by_contra hh
          exact hnb ⟨hs.1, hs.2, by omega⟩
        have : g.n0 * g.L * g.m0 * (g.a * g.b) ≤ g.n0 * g.L * g.m0 * p := Nat.mul_le_mul_left _ hra
        rw [h.nn_eq (Or.inl hs.1) hs.2] at he'
        have e5 : g.a * g.b * (g.n0 * g.m0 * g.L) = g.n0 * g.L * g.m0 * (g.a * g.b) := by ring
        have := lt1 hQ hx
        omega
      have e2 : (t2 r).loc.mem (w r + (g.nn r * g.L * g.m0 * p + (j * (g.mm p * g.L) + k))) =
          (t1 r).loc.mem (w r + (g.nn r * g.L * g.m0 * p + (j * (g.mm p * g.L) + k))) := by
        refine (d2 r (by omega)).2 _ fun hs hh => ?_
        exact hwo' hc r hr (by simpa using hh.1)
      rw [e4, e3, e2, e1]
      congr 2
      ring
    · obtain ⟨hrK, hpK⟩ := hrp
      rw [(K_eq h hpK).2] at hk ⊢
      have hnr := (K_eq h hrK).1
      rw [hnr] at hj
      by_cases ha : g.a > 1
      · -- blocked
        have hKe : g.K = g.a * g.b := if_pos ha
        rw [hKe] at hrK hpK
        obtain ⟨hvr, hur⟩ := mod_div_lt hrK
        obtain ⟨hvp, hup⟩ := mod_div_lt hpK
        have hpe : p / g.b * g.b + p % g.b = p := by rw [Nat.mul_comm]; exact Nat.div_add_mod p g.b
        have hre : r / g.b * g.b + r % g.b = r := by rw [Nat.mul_comm]; exact Nat.div_add_mod r g.b
        have hc2 : g.cnt2 = g.n0 * g.b * (g.m0 * g.L) := by unfold cnt2; rw [if_pos ha]; ring
        have hcc : g.c2 = g.a := if_pos ha
        have e4 := ((d4 r (by omega)).1 hr).blk ha hrK (p / g.b) hup (p % g.b) hvp j (by rw [hnr]; exact hj) k hk
        rw [hnr, hpe] at e4
        have hx1 : (j * g.a + p / g.b) * (g.m0 * g.L) + k < g.n0 * g.m0 * g.a * g.L := by
          have : j * g.a + p / g.b < g.n0 * g.a := rad_lt hup hj
          have := rad_lt hk this
          calc _ < _ := this
            _ = _ := by ring
        have e3 := d3 r ⟨ha, hrK⟩ (p % g.b) hvp _ hx1
        -- the process holding it
        have hq1 : r / g.b * g.b + p % g.b < g.a * g.b := rad_lt hvp hur
        obtain ⟨m1, m2⟩ := uv (u := r / g.b) hvp
        have hqs := sub_size h ⟨ha, hq1⟩
        have hcl : r % g.b * g.n0 + j < g.n0 * g.b := by rw [Nat.mul_comm g.n0]; exact rad_lt hj hvr
        have e2 := (d2 (r / g.b * g.b + p % g.b) (by omega)).1 ⟨ha, hq1⟩ (p / g.b) hup (r % g.b * g.n0 + j) hcl k hk
        have hx : (r % g.b * g.n0 + j) * (g.m0 * g.L) + k < g.cnt2 := by
          rw [hc2]
          exact rad_lt hk hcl
        have e1 := d1' (r / g.b * g.b + p % g.b) (by omega) (p / g.b) (by omega) _ hx
        rw [show g.f2 (r / g.b * g.b + p % g.b) (p / g.b) = p / g.b * g.b + (r / g.b * g.b + p % g.b) % g.b from if_pos ha,
          show g.r2 (r / g.b * g.b + p % g.b) = (r / g.b * g.b + p % g.b) / g.b from if_pos ha, m1, m2, hpe] at e1
        have a4 : ((p % g.b * g.n0 + j) * g.a + p / g.b) * (g.m0 * g.L) + k =
            p % g.b * (g.n0 * g.m0 * g.a * g.L) + ((j * g.a + p / g.b) * (g.m0 * g.L) + k) := by ring
        have a3 : r % g.b * (g.n0 * g.m0 * g.a * g.L) + ((j * g.a + p / g.b) * (g.m0 * g.L) + k) =
            ((r % g.b * g.n0 + j) * g.a + p / g.b) * (g.m0 * g.L) + k := by ring
        have a2 : (p / g.b * (g.n0 * g.b) + (r % g.b * g.n0 + j)) * (g.m0 * g.L) + k =
            p / g.b * g.cnt2 + ((r % g.b * g.n0 + j) * (g.m0 * g.L) + k) := by rw [hc2]; ring
        have a1 : (r * g.n0 + j) * (g.m0 * g.L) + k = r / g.b * g.cnt2 + ((r % g.b * g.n0 + j) * (g.m0 * g.L) + k) := by
          rw [hc2]
          conv_lhs => rw [← hre]
          ring
        rw [e4, a4, e3, a3, e2, a2, e1, a1]
      · have hcc : g.c2 = g.K := if_neg ha
        have hc2 : g.cnt2 = g.n0 * (g.m0 * g.L) := by unfold cnt2; rw [if_neg ha]; ring
        have hx : j * (g.m0 * g.L) + k < g.cnt2 := by rw [hc2]; exact rad_lt hk hj
        have e1 := d1' r hrK p (by omega) _ hx
        rw [show g.f2 r p = p from if_neg ha, show g.r2 r = r from if_neg ha] at e1
        have hns : ¬ (g.a > 1 ∧ r < g.a * g.b) := fun hh => ha hh.1
        have e4 := ((d4 r (by omega)).1 hr).dir p hp (fun hh => ha hh.1) j (by rw [hnr]; exact hj) k (by rw [(K_eq h hpK).2]; exact hk)
        rw [(K_eq h hpK).2, hnr] at e4
        have a4 : (r * g.n0 + j) * (g.m0 * g.L) + k = r * g.cnt2 + (j * (g.m0 * g.L) + k) := by rw [hc2]; ring
        have a3 : p * g.cnt2 + (j * (g.m0 * g.L) + k) = g.n0 * g.L * g.m0 * p + (j * (g.m0 * g.L) + k) := by rw [hc2]; ring
        rw [a4, e4, f3 r (by omega) _ (fun hh => absurd hh hns), (d2 r (by omega)).2 _ (fun hh => absurd hh hns), ← a3, e1]
  · intro i hi a ha
    rw [(d4 i hi).2 a, f3 i hi a, (d2 i hi).2 a, f1 i hi a]
    · rintro his Q hQ _ x hx rfl
      exact hwf i his _ (ha his).1 (ha his).2 (region_has.2 ⟨_, dir_wk h (cm i Q x hx), rfl⟩)
    · rintro hik Q hQ x hx rfl
      have his : i < g.size := by omega
      exact hwf i his _ (ha his).1 (ha his).2 (region_has.2 ⟨_, lt_of_lt_of_le (lt2 hQ hx) (K_wk h hik), rfl⟩)
    · intro hs hh
      obtain ⟨y, hy, rfl⟩ := region_has.1 hh
      exact (ha (sub_size h hs)).1 (region_has.2 ⟨y, lt_of_lt_of_le hy (ab_wk h hs), rfl⟩)
    · rintro hs Q hQ x hx rfl
      have his := sub_size h hs
      exact hwf i his _ (ha his).1 (ha his).2 (region_has.2 ⟨_, lt_of_lt_of_le (lt1 hQ hx) (ab_wk h hs), rfl⟩)
    · intro his; exact (ha his).1

end Geo
end Fftwpp.Net
