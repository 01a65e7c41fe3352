import Verif.Proof.Trans

/-!
# The exchanges of the distributed transpose
-/

namespace Fftwpp.Net
variable {V : Type}

namespace Geo
variable {g : Geo}

/-- The processes taking part in the collective exchange of the second stage. -/
def K (g : Geo) : ℕ :=
  if g.a > 1 then g.a * g.b else if g.uniform = true then g.size else if g.schedule = true then 0 else min g.nlast g.mlast
/-- Its communicators. -/
def f2 (g : Geo) (i Q : ℕ) : ℕ := if g.a > 1 then Q * g.b + i % g.b else Q
/-- Their size. -/
def c2 (g : Geo) : ℕ := if g.a > 1 then g.a else g.K
/-- The rank of a process. -/
def r2 (g : Geo) (i : ℕ) : ℕ := if g.a > 1 then i / g.b else i
/-- Scheduled? -/
def sch2 (g : Geo) : Bool := (decide (g.a > 1) || g.uniform) && g.schedule
/-- The context. -/
def ctx2 (g : Geo) : ℕ := if g.a > 1 ∨ g.uniform = true then 2 else 3
/-- The request array. -/
def arr2 (g : Geo) : ℕ := if g.a > 1 ∨ g.uniform = true then 1 else 2
/-- The message length. -/
def cnt2 (g : Geo) : ℕ := g.n0 * g.m0 * (if g.a > 1 then g.b else 1) * g.L
/-- The collective exchange. -/
noncomputable def coll2 (g : Geo) : ℕ → List Item := collItems (· < g.K) g.f2 g.c2 g.r2 g.sch2 g.ctx2 g.arr2 g.cnt2
/-- The direct exchange, outwards. -/
def dirO (g : Geo) : ℕ → List Item :=
  dirItems g.size g.K (fun i => g.mm i * g.L * g.n0) (fun i => g.nn i * g.L * g.m0) (fun i Q => g.mm i * g.L * g.nn Q)
/-- The direct exchange, inwards. -/
def dirI (g : Geo) : ℕ → List Item :=
  dirItems g.size g.K (fun i => g.nn i * g.L * g.m0) (fun i => g.mm i * g.L * g.n0) (fun i Q => g.nn i * g.L * g.mm Q)
/-- The requests, outwards. -/
def wsO (g : Geo) (i : ℕ) : List (ℕ × ℕ) :=
  if i < g.size then (if g.uniform = true then [] else dirWs g.size g.K i) ++ (if i < g.K then collWs g.sch2 g.arr2 g.c2 else []) else []
/-- The requests, inwards (in the blocked case the collective exchange is waited for first). -/
def wsI (g : Geo) (i : ℕ) : List (ℕ × ℕ) :=
  if i < g.size then
    if g.a > 1 then (if i < g.K then collWs g.sch2 g.arr2 g.c2 else []) ++ (if g.uniform = true then [] else dirWs g.size g.K i) else g.wsO i
  else []

theorem K_le (h : g.OK) : g.K ≤ g.size := by
  unfold K
  have h1 := h.nlast
  split_ifs with h2
  · exact h.ab_size (Or.inl h2)
  · exact le_rfl
  · omega
  · omega

theorem K_eq (h : g.OK) {i : ℕ} (hi : i < g.K) : g.nn i = g.n0 ∧ g.mm i = g.m0 := by
  unfold K at hi
  split_ifs at hi with h2 h3 h4
  · exact ⟨h.nn_eq (Or.inl h2) hi, h.mm_eq (Or.inl h2) hi⟩
  · rw [← h.uniform h3] at hi
    exact ⟨h.nn_eq (Or.inr h3) hi, h.mm_eq (Or.inr h3) hi⟩
  · omega
  · exact ⟨if_pos (by omega), if_pos (by omega)⟩

theorem K_uniform (h : g.OK) (hu : g.uniform = true) : g.K = g.size := by
  unfold K
  rw [if_pos hu]
  split_ifs
  · exact h.uniform hu
  · rfl

theorem comm2 (h : g.OK) {P : ℕ} (hP : g.size ≤ P) : Comm P (· < g.K) g.f2 g.c2 g.r2 := by
  have hK := K_le h
  by_cases ha : g.a > 1
  · have e1 : g.K = g.a * g.b := if_pos ha
    have e2 : g.f2 = fun i Q => Q * g.b + i % g.b := by funext i Q; exact if_pos ha
    have e3 : g.c2 = g.a := if_pos ha
    have e4 : g.r2 = (· / g.b) := by funext i; exact if_pos ha
    rw [e1, e2, e3, e4]
    rw [e1] at hK
    exact comm_split2 (by omega)
  · have e2 : g.f2 = fun i Q => Q := by funext i Q; exact if_neg ha
    have e3 : g.c2 = g.K := if_neg ha
    have e4 : g.r2 = id := by funext i; exact if_neg ha
    rw [e2, e3, e4]
    exact comm_id (by omega)

theorem cnt_K : g.c2 * g.cnt2 = g.K * (g.n0 * g.m0 * g.L) := by
  unfold c2 cnt2
  by_cases ha : g.a > 1
  · rw [if_pos ha, if_pos ha, K, if_pos ha]; ring
  · rw [if_neg ha, if_neg ha]; ring

theorem a1 (h : g.OK) (ha : ¬ g.a > 1) : g.a = 1 := by have := h.a; omega

/-- The direct exchange as written in the code. -/
theorem ialltoallout_eq (h : g.OK) {i start : ℕ} (hi : i < g.size) {snd rcv : Loc} :
    ((g.mt i).ialltoallout snd rcv start : Prog V Unit) =
      Prog.calls ((dirItems g.size start (fun i => g.mm i * g.L * g.n0) (fun i => g.nn i * g.L * g.m0) (fun i Q => g.mm i * g.L * g.nn Q) i).flatMap
        fun x => x.ops i snd rcv false) := by
  rw [← dir_eq hi]
  have hc : ∀ P, g.nn i * g.L * (g.mt i).mi P = g.mm P * g.L * g.nn i := fun P => by
    rw [show (g.mt i).mi P = g.mm P from rfl]; ring
  have hc' : ∀ P, g.mm i * g.L * (g.mt i).ni P = g.mm i * g.L * g.nn P := fun P => rfl
  unfold MT.ialltoallout
  simp only [show (g.mt i).n = g.nn i from rfl, show (g.mt i).m = g.mm i from rfl, show (g.mt i).L = g.L from rfl, show (g.mt i).rank = i from rfl,
    show (g.mt i).size = g.size from rfl, show (g.mt i).m0 = g.m0 from rfl, show (g.mt i).n0 = g.n0 from rfl, MT.Size, hc, hc']
  rfl

theorem ialltoallin_eq (h : g.OK) {i start : ℕ} (hi : i < g.size) {snd rcv : Loc} :
    ((g.mt i).ialltoallin snd rcv start : Prog V Unit) =
      Prog.calls ((dirItems g.size start (fun i => g.nn i * g.L * g.m0) (fun i => g.mm i * g.L * g.n0) (fun i Q => g.nn i * g.L * g.mm Q) i).flatMap
        fun x => x.ops i snd rcv false) := by
  rw [← dir_eq hi]
  have hc : ∀ P, g.nn i * g.L * (g.mt i).mi P = g.nn i * g.L * g.mm P := fun P => rfl
  have hc' : ∀ P, g.mm i * g.L * (g.mt i).ni P = g.nn P * g.L * g.mm i := fun P => by
    rw [show (g.mt i).ni P = g.nn P from rfl]; ring
  unfold MT.ialltoallin
  simp only [show (g.mt i).n = g.nn i from rfl, show (g.mt i).m = g.mm i from rfl, show (g.mt i).L = g.L from rfl, show (g.mt i).rank = i from rfl,
    show (g.mt i).size = g.size from rfl, show (g.mt i).m0 = g.m0 from rfl, show (g.mt i).n0 = g.n0 from rfl, MT.Size, hc, hc']
  rfl

/-- The collective exchange of the second stage as written in the code. -/
theorem coll2_eq (h : g.OK) {i : ℕ} (hi : i < g.K) (hb : g.a > 1 ∨ g.uniform = true) {snd rcv : Loc} (hc : decide (snd = rcv) = g.compact) :
    (ialltoall snd ((g.mt i).n * (g.mt i).m * (if (g.mt i).a > 1 then (g.mt i).b else (g.mt i).a) * (g.mt i).L) rcv (g.mt i).split2 2 (g.mt i).rank 1
      (g.mt i).schedule : Prog V Unit) = Prog.calls ((g.coll2 i).flatMap fun x => x.ops i snd rcv g.compact) := by
  have hsch : g.sch2 = g.schedule := by
    unfold sch2
    rcases hb with hb | hb <;> simp [hb]
  have hctx : g.ctx2 = 2 := if_pos hb
  have harr : g.arr2 = 1 := if_pos hb
  have hcnt : (g.mt i).n * (g.mt i).m * (if (g.mt i).a > 1 then (g.mt i).b else (g.mt i).a) * (g.mt i).L = g.cnt2 := by
    show g.nn i * g.mm i * (if g.a > 1 then g.b else g.a) * g.L = _
    rw [(K_eq h hi).1, (K_eq h hi).2]
    unfold cnt2
    by_cases ha : g.a > 1
    · rw [if_pos ha, if_pos ha]
    · rw [if_neg ha, if_neg ha, a1 h ha]
  rw [hcnt]
  have := ialltoall_eq (V := V) (comm2 h (le_refl _)) (sch := g.sch2) (ctx := g.ctx2) (arr := g.arr2) (count := g.cnt2) (snd := snd) (rcv := rcv)
    (cm := (g.mt i).split2) hi ?_ ?_
  · rw [hc, hsch, hctx, harr] at this
    unfold coll2
    rw [hsch, hctx, harr]
    exact this
  · by_cases ha : g.a > 1
    · have : i < g.a * g.b := by unfold K at hi; rwa [if_pos ha] at hi
      rw [split2_eq h ha this, c2, if_pos ha]
      exact List.map_congr_left fun Q _ => (if_pos ha).symm
    · have hu := hb.resolve_left ha
      rw [split2_eq1 (a1 h ha), c2, if_neg ha, K_uniform h hu]
      exact List.map_congr_left fun Q _ => (if_neg ha).symm
  · intro he
    rw [hsch]
    rw [he] at hc
    simp only [decide_true] at hc
    exact (h.compact hc.symm).2

theorem collv_eq (h : g.OK) {i : ℕ} (hb : ¬ (g.a > 1 ∨ g.uniform = true)) (hs : g.schedule = false) (hi : i < min g.nlast g.mlast) {snd rcv : Loc}
    (hc : snd ≠ rcv) :
    (ialltoall snd ((g.mt i).n * (g.mt i).m * (g.mt i).L) rcv (g.mt i).splitv 3 (g.mt i).rank 2 false : Prog V Unit) =
      Prog.calls ((g.coll2 i).flatMap fun x => x.ops i snd rcv false) := by
  have ha : ¬ g.a > 1 := fun hh => hb (Or.inl hh)
  have hu : ¬ g.uniform = true := fun hh => hb (Or.inr hh)
  have hK : g.K = min g.nlast g.mlast := by
    unfold K
    rw [if_neg ha, if_neg hu, if_neg (by simp [hs])]
  have hsch : g.sch2 = false := by simp [sch2, hs]
  have hctx : g.ctx2 = 3 := if_neg hb
  have harr : g.arr2 = 2 := if_neg hb
  have hi' : i < g.K := by omega
  have hcnt : (g.mt i).n * (g.mt i).m * (g.mt i).L = g.cnt2 := by
    show g.nn i * g.mm i * g.L = _
    rw [(K_eq h hi').1, (K_eq h hi').2]
    unfold cnt2
    rw [if_neg ha, Nat.mul_one]
  rw [hcnt]
  have := ialltoall_eq (V := V) (comm2 h (le_refl _)) (sch := g.sch2) (ctx := g.ctx2) (arr := g.arr2) (count := g.cnt2) (snd := snd) (rcv := rcv)
    (cm := (g.mt i).splitv) hi' ?_ ?_
  · rw [show decide (snd = rcv) = false by simp [hc], hsch, hctx, harr] at this
    unfold coll2
    rw [hsch, hctx, harr]
    exact this
  · rw [splitv_eq h hi, c2, if_neg ha, hK]
    exact List.map_congr_left fun Q _ => (if_neg ha).symm
  · intro he
    exact absurd he hc

theorem coll2_nil {i : ℕ} (hi : ¬ i < g.K) : g.coll2 i = [] := by
  unfold coll2 collItems
  rw [if_neg hi]

theorem flat_append (l l' : List Item) (i : ℕ) (snd rcv : Loc) (ip : Bool) :
    (Prog.calls ((l ++ l').flatMap fun x => x.ops i snd rcv ip) : Prog V Unit) =
      (Prog.calls (l.flatMap fun x => x.ops i snd rcv ip)).bind fun _ => Prog.calls (l'.flatMap fun x => x.ops i snd rcv ip) := by
  rw [List.flatMap_append, calls_append]

end Geo
end Fftwpp.Net
