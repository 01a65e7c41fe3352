import Verif.Proof.Trans2

/-!
# The programs of the distributed transpose as sequences of supersteps
-/

namespace Fftwpp.Net
variable {V : Type}

namespace Geo
variable {g : Geo}

theorem ret_bind (f : Unit → Prog V Unit) : (Prog.ret ()).bind f = f () := rfl
theorem bind_ret (x : Prog V Unit) : (x.bind fun _ => Prog.ret ()) = x := by
  induction x with
  | ret => rfl
  | fail => rfl
  | op o k ih => simp only [Prog.bind, ih]
  | load a k ih => simp only [Prog.bind, ih]

theorem dirO_nil (h : g.OK) (hu : g.uniform = true) (i : ℕ) : g.dirO i = [] := dirItems_nil (by rw [K_uniform h hu]) _ _ _ i
theorem dirI_nil (h : g.OK) (hu : g.uniform = true) (i : ℕ) : g.dirI i = [] := dirItems_nil (by rw [K_uniform h hu]) _ _ _ i

theorem not_compact (h : g.OK) (hu : ¬ g.uniform = true) : g.compact = false := by
  by_contra hc
  exact hu (h.compact (by simpa using hc)).1

/-- The transpose between the two stages. -/
def midP (g : Geo) (i : ℕ) (output work : Loc) : Prog V Unit :=
  if g.a > 1 ∧ i < g.a * g.b then transpose (g.nn i * g.b) g.a (g.mm i * g.L) g.compact output work else .ret ()

theorem sub_iff (i : ℕ) : (g.mt i).subblock = true ↔ g.a > 1 ∧ i < g.a * g.b := by
  simp [mt]

theorem outphase_eq (h : g.OK) (h1 : g.size ≠ 1) {i : ℕ} (hi : i < g.size) {out wk : Loc} (hc : decide (wk = out) = g.compact) :
    ((g.mt i).outphase out wk : Prog V Unit) = (g.midP i out wk).bind fun _ =>
      Prog.calls ((mixItems (!decide (g.a > 1)) g.coll2 g.dirO i).flatMap fun x => x.ops i wk out g.compact) := by
  unfold MT.outphase
  rw [if_neg (show ¬ ((g.mt i).size = 1 ∨ (g.mt i).rank ≥ (g.mt i).size) by
    show ¬ (g.size = 1 ∨ i ≥ g.size)
    omega)]
  have hmid : (if (g.mt i).subblock = true then transpose ((g.mt i).n * (g.mt i).b) (g.mt i).a ((g.mt i).m * (g.mt i).L) (g.mt i).compact out wk
      else Prog.ret ()) = (g.midP i out wk : Prog V Unit) := by
    unfold midP
    by_cases hs : g.a > 1 ∧ i < g.a * g.b
    · rw [if_pos ((sub_iff i).2 hs), if_pos hs]; rfl
    · rw [if_neg (fun hh => hs ((sub_iff i).1 hh)), if_neg hs]
  rw [hmid]
  show Prog.bind _ _ = _
  congr 1
  funext _
  by_cases ha : g.a > 1
  · have hK : g.K = g.a * g.b := if_pos ha
    simp only [ha, decide_true, Bool.not_true, mixItems, Bool.false_eq_true, if_false]
    rw [flat_append]
    by_cases hu : g.uniform = true
    · rw [dirO_nil h hu]
      have hik : i < g.K := by rw [K_uniform h hu]; exact hi
      rw [if_neg (show ¬ (g.mt i).uniform = false by simp [mt, hu]), if_pos (show (g.mt i).uniform = true ∨ (g.mt i).subblock = true from Or.inl hu), coll2_eq h hik (Or.inl ha) hc]
      rfl
    · have hc' := not_compact h hu
      have hsch := h.sched (by simpa using hu) ha
      rw [if_pos (show (g.mt i).uniform = false by simpa [mt] using hu), if_pos (show (g.mt i).schedule = true from hsch), if_pos (show (g.mt i).a > 1 from ha), ialltoallout_eq h hi]
      have : (dirItems g.size ((g.mt i).a * (g.mt i).b) (fun i => g.mm i * g.L * g.n0) (fun i => g.nn i * g.L * g.m0) (fun i Q => g.mm i * g.L * g.nn Q) i)
          = g.dirO i := by
        unfold dirO
        rw [hK]; rfl
      rw [this, hc']
      show Prog.bind _ _ = _
      congr 1
      funext _
      by_cases hs : i < g.a * g.b
      · rw [if_pos (Or.inr ((sub_iff i).2 ⟨ha, hs⟩)), ← hc']
        exact coll2_eq h (by omega) (Or.inl ha) hc
      · rw [if_neg (by
          rintro (hh | hh)
          · exact hu hh
          · exact hs ((sub_iff i).1 hh).2), coll2_nil (by omega)]
        rfl
  · have hs : ¬ (g.mt i).subblock = true := fun hh => ha ((sub_iff i).1 hh).1
    simp only [ha, decide_false, Bool.not_false, mixItems, if_true]
    rw [flat_append]
    by_cases hu : g.uniform = true
    · rw [dirO_nil h hu]
      have hik : i < g.K := by rw [K_uniform h hu]; exact hi
      rw [if_neg (show ¬ (g.mt i).uniform = false by simp [mt, hu]), if_pos (show (g.mt i).uniform = true ∨ (g.mt i).subblock = true from Or.inl hu), coll2_eq h hik (Or.inr hu) hc]
      show _ = (Prog.calls _).bind fun _ => Prog.ret ()
      rw [bind_ret]; rfl
    · have hc' := not_compact h hu
      have hne : wk ≠ out := by
        rw [hc'] at hc; simpa using hc
      rw [if_pos (show (g.mt i).uniform = false by simpa [mt] using hu), if_neg (show ¬ ((g.mt i).uniform = true ∨ (g.mt i).subblock = true) by
        rintro (hh | hh)
        · exact hu hh
        · exact hs hh), hc']
      show Prog.bind _ _ = _
      rw [bind_ret]
      by_cases hsc : g.schedule = true
      · have hK : g.K = 0 := by unfold K; rw [if_neg ha, if_neg hu, if_pos hsc]
        rw [if_pos (show (g.mt i).schedule = true from hsc), if_neg (show ¬ (g.mt i).a > 1 from ha), ialltoallout_eq h hi, coll2_nil (by omega)]
        unfold dirO
        rw [hK]
        rfl
      · have hK : g.K = min g.nlast g.mlast := by unfold K; rw [if_neg ha, if_neg hu, if_neg hsc]
        rw [if_neg (show ¬ (g.mt i).schedule = true from hsc), ialltoallout_eq h hi]
        show Prog.bind _ _ = _
        have : (dirItems g.size (g.mt i).last (fun i => g.mm i * g.L * g.n0) (fun i => g.nn i * g.L * g.m0) (fun i Q => g.mm i * g.L * g.nn Q) i)
            = g.dirO i := by
          unfold dirO
          rw [hK]; rfl
        rw [this]
        congr 1
        by_cases hl : i < min g.nlast g.mlast
        · rw [if_pos (show (g.mt i).rank < (g.mt i).last from hl)]
          exact collv_eq h (by tauto) (by simpa using hsc) hl hne
        · rw [if_neg (show ¬ (g.mt i).rank < (g.mt i).last from hl), coll2_nil (by omega)]
          rfl

theorem inphase0_eq (h : g.OK) (h1 : g.size ≠ 1) {i : ℕ} (hi : i < g.size) {inp out wk : Loc} (hc : decide (inp = wk) = g.compact) :
    ((g.mt i).inphase0 inp out wk : Prog V Unit) =
      Prog.calls ((mixItems true g.coll2 g.dirI i).flatMap fun x => x.ops i inp wk g.compact) := by
  unfold MT.inphase0
  rw [if_neg (show ¬ (g.mt i).rank ≥ (g.mt i).size from by show ¬ i ≥ g.size; omega), if_neg (show ¬ (g.mt i).size = 1 from h1)]
  simp only [mixItems, if_true]
  rw [flat_append]
  show Prog.bind _ _ = _
  by_cases hu : g.uniform = true
  · rw [dirI_nil h hu]
    have hik : i < g.K := by rw [K_uniform h hu]; exact hi
    rw [if_pos (show (g.mt i).uniform = true ∨ (g.mt i).subblock = true from Or.inl hu), coll2_eq h hik (Or.inr hu) hc]
    congr 1
    funext _
    rw [if_neg (show ¬ (g.mt i).uniform = false by simp [mt, hu])]
    rfl
  · have hc' := not_compact h hu
    have hne : inp ≠ wk := by
      rw [hc'] at hc; simpa using hc
    have hun : (g.mt i).uniform = false := by simpa [mt] using hu
    by_cases ha : g.a > 1
    · have hK : g.K = g.a * g.b := if_pos ha
      have hsch := h.sched (by simpa using hu) ha
      have e1 : (if (g.mt i).uniform = true ∨ (g.mt i).subblock = true then
          ialltoall inp ((g.mt i).n * (g.mt i).m * (if (g.mt i).a > 1 then (g.mt i).b else (g.mt i).a) * (g.mt i).L) wk (g.mt i).split2 2 (g.mt i).rank 1
            (g.mt i).schedule else Prog.ret () : Prog V Unit) = Prog.calls ((g.coll2 i).flatMap fun x => x.ops i inp wk g.compact) := by
        by_cases hs : i < g.a * g.b
        · rw [if_pos (Or.inr ((sub_iff i).2 ⟨ha, hs⟩))]
          exact coll2_eq h (by omega) (Or.inl ha) hc
        · rw [if_neg (by
            rintro (hh | hh)
            · exact hu hh
            · exact hs ((sub_iff i).1 hh).2), coll2_nil (by omega)]
          rfl
      rw [e1]
      congr 1
      funext _
      rw [if_pos hun, if_pos (show (g.mt i).schedule = true from hsch), if_pos (show (g.mt i).a > 1 from ha), ialltoallin_eq h hi, hc']
      unfold dirI
      rw [hK]; rfl
    · have hs : ¬ (g.mt i).subblock = true := fun hh => ha ((sub_iff i).1 hh).1
      rw [if_neg (show ¬ ((g.mt i).uniform = true ∨ (g.mt i).subblock = true) by
        rintro (hh | hh)
        · exact hu hh
        · exact hs hh), ret_bind, if_pos hun, hc']
      by_cases hsc : g.schedule = true
      · have hK : g.K = 0 := by unfold K; rw [if_neg ha, if_neg hu, if_pos hsc]
        rw [if_pos (show (g.mt i).schedule = true from hsc), if_neg (show ¬ (g.mt i).a > 1 from ha), ialltoallin_eq h hi, coll2_nil (by omega)]
        unfold dirI
        rw [hK]
        rfl
      · have hK : g.K = min g.nlast g.mlast := by unfold K; rw [if_neg ha, if_neg hu, if_neg hsc]
        rw [if_neg (show ¬ (g.mt i).schedule = true from hsc), ialltoallin_eq h hi]
        show Prog.bind _ _ = _
        have : (dirItems g.size (g.mt i).last (fun i => g.nn i * g.L * g.m0) (fun i => g.mm i * g.L * g.n0) (fun i Q => g.nn i * g.L * g.mm Q) i)
            = g.dirI i := by
          unfold dirI
          rw [hK]; rfl
        rw [this]
        congr 1
        by_cases hl : i < min g.nlast g.mlast
        · rw [if_pos (show (g.mt i).rank < (g.mt i).last from hl)]
          exact collv_eq h (by tauto) (by simpa using hsc) hl hne
        · rw [if_neg (show ¬ (g.mt i).rank < (g.mt i).last from hl), coll2_nil (by omega)]
          rfl

/-! ### Waits -/

/-- A list of waits. -/
def waits (l : List (ℕ × ℕ)) : Prog V Unit := Prog.calls (l.map fun id => .wait id)

theorem waits_append (l l' : List (ℕ × ℕ)) : (waits (l ++ l') : Prog V Unit) = (waits l).bind fun _ => waits l' := by
  unfold waits
  rw [List.map_append, calls_append]

theorem waitall_eq (arr n : ℕ) : (waitall arr n : Prog V Unit) = waits ((List.range n).map fun j => (arr, j)) := by
  unfold waitall waits
  rw [List.map_map]; rfl

theorem Wait_eq (arr n : ℕ) (sch : Bool) : (Wait arr n sch : Prog V Unit) = waits (collWs sch arr n) := by
  unfold Wait collWs
  split_ifs <;> exact waitall_eq _ _

theorem split2_len (h : g.OK) {i : ℕ} (hi : i < g.size) (hb : g.uniform = true ∨ (g.a > 1 ∧ i < g.a * g.b)) : (g.mt i).split2.length = g.c2 := by
  by_cases ha : g.a > 1
  · have hi : i < g.a * g.b := by
      rcases hb with hb | hb
      · rw [h.uniform hb]; exact hi
      · exact hb.2
    rw [split2_eq h ha hi, c2, if_pos ha]; simp
  · have hu : g.uniform = true := by tauto
    rw [split2_eq1 (a1 h ha), c2, if_neg ha, K_uniform h hu]; simp

/-- The waits of the non-uniform case. -/
theorem waitn_eq (h : g.OK) {i : ℕ} (hi : i < g.size) (hu : ¬ g.uniform = true) :
    ((if (g.mt i).schedule = true then waitall 0 (2 * (g.mt i).Size (if (g.mt i).a > 1 then (g.mt i).a * (g.mt i).b else 0))
    else do
      waitall 0 (2 * (g.mt i).Size (g.mt i).last)
      if (g.mt i).rank < (g.mt i).last then waitall 12 (2 * (g.mt i).splitv.length) else .ret ()) : Prog V Unit) =
    waits (dirWs g.size g.K i ++ if g.a > 1 then [] else if i < g.K then collWs g.sch2 g.arr2 g.c2 else []) := by
  have hd : ∀ st, (waitall 0 (2 * (g.mt i).Size st) : Prog V Unit) = waits (dirWs g.size st i) := fun st => waitall_eq _ _
  by_cases ha : g.a > 1
  · have hsch := h.sched (by simpa using hu) ha
    rw [if_pos (show (g.mt i).schedule = true from hsch), if_pos (show (g.mt i).a > 1 from ha), if_pos ha, List.append_nil, hd,
      show g.K = (g.mt i).a * (g.mt i).b from if_pos ha]
  · rw [if_neg ha]
    by_cases hsc : g.schedule = true
    · have hK : g.K = 0 := by unfold K; rw [if_neg ha, if_neg hu, if_pos hsc]
      rw [if_pos (show (g.mt i).schedule = true from hsc), if_neg (show ¬ (g.mt i).a > 1 from ha), hK, if_neg (by omega), List.append_nil, hd]
    · have hK : g.K = min g.nlast g.mlast := by unfold K; rw [if_neg ha, if_neg hu, if_neg hsc]
      rw [if_neg (show ¬ (g.mt i).schedule = true from hsc), waits_append, hd, hK]
      show Prog.bind _ _ = _
      congr 1
      funext _
      by_cases hl : i < min g.nlast g.mlast
      · rw [if_pos (show (g.mt i).rank < (g.mt i).last from hl), if_pos hl, splitv_eq h hl]
        have e1 : g.sch2 = false := by simp [sch2, show g.schedule = false by simpa using hsc]
        have e2 : g.arr2 = 2 := if_neg (by tauto)
        have e3 : g.c2 = min g.nlast g.mlast := by rw [c2, if_neg ha, hK]
        rw [e1, e2, e3, waitall_eq]
        simp [collWs]
      · rw [if_neg (show ¬ (g.mt i).rank < (g.mt i).last from hl), if_neg hl]
        rfl

theorem wait2_eq (h : g.OK) {i : ℕ} (hi : i < g.size) : ((if (g.mt i).uniform = true ∨ (g.mt i).subblock = true then
      Wait 1 (g.mt i).split2.length (g.mt i).schedule else .ret ()) : Prog V Unit) =
    waits (if g.a > 1 ∨ g.uniform = true then if i < g.K then collWs g.sch2 g.arr2 g.c2 else [] else []) := by
  by_cases hb : g.uniform = true ∨ (g.a > 1 ∧ i < g.a * g.b)
  · have hb' : g.a > 1 ∨ g.uniform = true := by tauto
    have hik : i < g.K := by
      rcases hb with hb | hb
      · rw [K_uniform h hb]; exact hi
      · rw [K, if_pos hb.1]; exact hb.2
    have hsch : g.sch2 = g.schedule := by
      unfold sch2
      rcases hb' with hb | hb <;> simp [hb]
    rw [if_pos (by
      rcases hb with hb | hb
      · exact Or.inl hb
      · exact Or.inr ((sub_iff i).2 hb)), if_pos hb', if_pos hik, Wait_eq, split2_len h hi hb, hsch, show g.arr2 = 1 from if_pos hb']
    rfl
  · rw [if_neg (by
      rintro (hh | hh)
      · exact hb (Or.inl hh)
      · exact hb (Or.inr ((sub_iff i).1 hh)))]
    split_ifs with h1 h2
    · exfalso
      apply hb
      rcases h1 with h1 | h1
      · rw [K, if_pos h1] at h2; exact Or.inr ⟨h1, h2⟩
      · exact Or.inl h1
    · rfl
    · rfl

theorem outsync_eq (h : g.OK) (h1 : g.size ≠ 1) {i : ℕ} (hi : i < g.size) : ((g.mt i).outsync : Prog V Unit) = waits (g.wsO i) := by
  unfold MT.outsync
  rw [if_neg (show ¬ ((g.mt i).size = 1 ∨ (g.mt i).rank ≥ (g.mt i).size) by
    show ¬ (g.size = 1 ∨ i ≥ g.size)
    omega), wait2_eq h hi]
  unfold wsO
  rw [if_pos hi]
  show Prog.bind _ _ = _
  by_cases hu : g.uniform = true
  · rw [if_neg (show ¬ (g.mt i).uniform = false by simp [mt, hu]), ret_bind, if_pos hu, if_pos (Or.inr hu), List.nil_append]
  · rw [if_pos (show (g.mt i).uniform = false by simpa [mt] using hu), waitn_eq h hi hu, if_neg hu, ← waits_append]
    by_cases ha : g.a > 1
    · simp [ha]
    · simp [ha, hu]

theorem insync0_eq (h : g.OK) (h1 : g.size ≠ 1) {i : ℕ} (hi : i < g.size) : ((g.mt i).insync0 : Prog V Unit) = waits (g.wsI i) := by
  unfold MT.insync0
  rw [if_neg (show ¬ ((g.mt i).size = 1 ∨ (g.mt i).rank ≥ (g.mt i).size) by
    show ¬ (g.size = 1 ∨ i ≥ g.size)
    omega), wait2_eq h hi]
  unfold wsI wsO
  rw [if_pos hi, if_pos hi]
  show Prog.bind _ _ = _
  by_cases hu : g.uniform = true
  · have : ((if (g.mt i).uniform = false then
        if (g.mt i).schedule = true then waitall 0 (2 * (g.mt i).Size (if (g.mt i).a > 1 then (g.mt i).a * (g.mt i).b else 0))
        else do
          waitall 0 (2 * (g.mt i).Size (g.mt i).last)
          if (g.mt i).rank < (g.mt i).last then waitall 12 (2 * (g.mt i).splitv.length) else .ret ()
      else .ret ()) : Prog V Unit) = .ret () := if_neg (by simp [mt, hu])
    rw [this, bind_ret, if_pos (Or.inr hu)]
    simp [hu]
  · have hn : (g.mt i).uniform = false := by simpa [mt] using hu
    simp only [hn, if_true]
    rw [waitn_eq h hi hu, if_neg hu, ← waits_append]
    by_cases ha : g.a > 1
    · simp [ha]
    · simp [ha, hu]

/-! ### The first stage -/

/-- The exchanges of the first stage. -/
noncomputable def coll1 (g : Geo) : ℕ → List Item :=
  collItems (fun i => g.a > 1 ∧ i < g.a * g.b) (fun i Q => i / g.b * g.b + Q) g.b (· % g.b) g.schedule 1 1 (g.n0 * g.m0 * g.a * g.L)
/-- The requests. -/
def ws1 (g : Geo) (i : ℕ) : List (ℕ × ℕ) := if g.a > 1 ∧ i < g.a * g.b then collWs g.schedule 1 g.b else []

theorem comm1 (h : g.OK) {P : ℕ} (hP : g.size ≤ P) : Comm P (fun i => g.a > 1 ∧ i < g.a * g.b) (fun i Q => i / g.b * g.b + Q) g.b (· % g.b) := by
  by_cases ha : g.a > 1
  · have := h.ab_size (Or.inl ha)
    simp only [ha, true_and]
    exact comm_split (by omega)
  · refine ⟨fun i hi => absurd hi.1 ha, fun i hi => absurd hi.1 ha, fun i hi => absurd hi.1 ha⟩

theorem stage1_eq (h : g.OK) {i : ℕ} (hi : i < g.size) {snd rcv : Loc} (hc : decide (snd = rcv) = g.compact) :
    ((if (g.mt i).subblock = true then ialltoall snd ((g.mt i).n * (g.mt i).m * (g.mt i).a * (g.mt i).L) rcv (g.mt i).split 1 (g.mt i).rank 1 (g.mt i).schedule
      else .ret ()) : Prog V Unit) = Prog.calls ((g.coll1 i).flatMap fun x => x.ops i snd rcv g.compact) := by
  by_cases hs : g.a > 1 ∧ i < g.a * g.b
  · rw [if_pos ((sub_iff i).2 hs)]
    have e1 : (g.mt i).n * (g.mt i).m * (g.mt i).a * (g.mt i).L = g.n0 * g.m0 * g.a * g.L := by
      show g.nn i * g.mm i * g.a * g.L = _
      rw [h.nn_eq (Or.inl hs.1) hs.2, h.mm_eq (Or.inl hs.1) hs.2]
    rw [e1]
    have := ialltoall_eq (V := V) (comm1 h (le_refl _)) (sch := g.schedule) (ctx := 1) (arr := 1) (count := g.n0 * g.m0 * g.a * g.L) (snd := snd) (rcv := rcv)
      (cm := (g.mt i).split) hs (split_eq h hs.1 hs.2) (by
        intro he
        rw [he] at hc
        simp only [decide_true] at hc
        exact (h.compact hc.symm).2)
    rw [hc] at this
    exact this
  · rw [if_neg (fun hh => hs ((sub_iff i).1 hh))]
    unfold coll1 collItems
    rw [if_neg hs]
    rfl

theorem wait1_eq (h : g.OK) {i : ℕ} : ((if (g.mt i).subblock = true then Wait 1 (g.mt i).split.length (g.mt i).schedule else .ret ()) : Prog V Unit) =
    waits (g.ws1 i) := by
  unfold ws1
  by_cases hs : g.a > 1 ∧ i < g.a * g.b
  · rw [if_pos ((sub_iff i).2 hs), if_pos hs, Wait_eq, split_eq h hs.1 hs.2]
    simp [mt]
  · rw [if_neg (fun hh => hs ((sub_iff i).1 hh)), if_neg hs]
    rfl

theorem localize0_eq (h : g.OK) (h1 : g.size ≠ 1) {i : ℕ} (hi : i < g.size) {inp out wrk wk : Loc} (hw : wk = if g.compact = true then out else wrk)
    (hc : decide (wk = out) = g.compact) :
    ((g.mt i).localize0 inp out wrk : Prog V Unit) = ((g.mt i).packP inp wk).bind fun _ =>
      (Prog.calls ((g.coll1 i).flatMap fun x => x.ops i wk out g.compact)).bind fun _ => (waits (g.ws1 i)).bind fun _ =>
      (g.midP i out wk).bind fun _ =>
      (Prog.calls ((mixItems (!decide (g.a > 1)) g.coll2 g.dirO i).flatMap fun x => x.ops i wk out g.compact)).bind fun _ =>
      (waits (g.wsO i)).bind fun _ => .ret () := by
  rw [← stage1_eq h hi hc, ← wait1_eq h]
  unfold MT.localize0
  rw [show (g.mt i).compact = g.compact from rfl, ← hw]
  show Prog.bind ((g.mt i).outphase0 inp out wk) _ = _
  unfold MT.outphase0
  rw [if_neg (show ¬ (g.mt i).rank ≥ (g.mt i).size from by show ¬ i ≥ g.size; omega), if_neg (show ¬ (g.mt i).size = 1 from h1)]
  show Prog.bind (Prog.bind ((g.mt i).packP inp wk) _) _ = _
  rw [Prog.bind_assoc]
  congr 1
  funext _
  unfold MT.outsync0
  rw [if_neg (show ¬ (g.mt i).rank ≥ (g.mt i).size from by show ¬ i ≥ g.size; omega)]
  by_cases hs : (g.mt i).subblock = true
  · simp only [hs, if_true]
    rw [outphase_eq h h1 hi hc, outsync_eq h h1 hi]
    show Prog.bind _ (fun _ => Prog.bind _ fun _ => Prog.bind _ fun _ => _) = _
    congr 1
    funext _
    congr 1
    funext _
    rw [Prog.bind_assoc]
    simp only [bind_ret]
  · simp only [hs, if_false]
    rw [outphase_eq h h1 hi hc, outsync_eq h h1 hi]
    show Prog.bind (Prog.bind _ _) (fun _ => Prog.bind _ fun _ => Prog.ret ()) = _
    rw [Prog.bind_assoc]
    rfl

/-- The transpose between the two stages, inwards. -/
def midI (g : Geo) (i : ℕ) (output work : Loc) : Prog V Unit :=
  if g.a > 1 ∧ i < g.a * g.b then transpose g.a (g.nn i * g.b) (g.mm i * g.L) g.compact work output else .ret ()

theorem localize1_eq (h : g.OK) (h1 : g.size ≠ 1) {i : ℕ} (hi : i < g.size) {inp out wrk wk : Loc} (hw : wk = if g.compact = true then out else wrk)
    (hc : decide (out = wk) = g.compact) (hc' : decide (inp = wk) = g.compact) :
    ((g.mt i).localize1 inp out wrk : Prog V Unit) =
      (Prog.calls ((mixItems true g.coll2 g.dirI i).flatMap fun x => x.ops i inp wk g.compact)).bind fun _ =>
      (waits (g.wsI i)).bind fun _ => (g.midI i out wk).bind fun _ =>
      (Prog.calls ((g.coll1 i).flatMap fun x => x.ops i out wk g.compact)).bind fun _ => (waits (g.ws1 i)).bind fun _ => 
      ((g.mt i).unpackP out wk).bind fun _ => .ret () := by
  rw [← stage1_eq h hi hc, ← wait1_eq h]
  unfold MT.localize1
  rw [show (g.mt i).compact = g.compact from rfl, ← hw, ← inphase0_eq (out := out) h h1 hi hc', ← insync0_eq h h1 hi]
  show Prog.bind _ (fun _ => Prog.bind _ fun _ => Prog.bind _ fun _ => Prog.bind _ fun _ => _) = _
  congr 1
  funext _
  congr 1
  funext _
  have hpost : ((g.mt i).inpost out wk : Prog V Unit) = (g.mt i).unpackP out wk := by
    unfold MT.inpost
    rw [if_neg (show ¬ ((g.mt i).size = 1 ∨ (g.mt i).rank ≥ (g.mt i).size) by
      show ¬ (g.size = 1 ∨ i ≥ g.size)
      omega)]
    rfl
  simp only [hpost]
  unfold MT.inphase1 MT.insync1 midI
  have hr : ¬ (g.mt i).rank ≥ (g.mt i).size := by show ¬ i ≥ g.size; omega
  rw [if_neg hr]
  have hr' : ¬ (g.mt i).rank ≥ g.size := hr
  simp only [show (g.mt i).size = g.size from rfl, hr', if_false]
  rw [bind_ret]
  by_cases hs : g.a > 1 ∧ i < g.a * g.b
  · rw [if_pos ((sub_iff i).2 hs)]
    simp only [(sub_iff i).2 hs, if_true]
    rw [if_pos hs]
    show Prog.bind (Prog.bind _ _) _ = _
    rw [Prog.bind_assoc]
    rfl
  · have hs' : ¬ (g.mt i).subblock = true := fun hh => hs ((sub_iff i).1 hh)
    simp only [hs', if_false, Bool.false_eq_true]
    rw [if_neg hs]
    rfl

end Geo
end Fftwpp.Net
