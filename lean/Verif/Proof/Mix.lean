import Verif.Proof.Pack2

/-!
# A collective exchange within communicators combined with direct exchanges between the other pairs
-/

namespace Fftwpp.Net
variable {V : Type}

/-- The two lists in the order in which they are posted. -/
def mixItems (cf : Bool) (C D : ℕ → List Item) (i : ℕ) : List Item := if cf = true then C i ++ D i else D i ++ C i

theorem mem_mixItems {cf : Bool} {C D : ℕ → List Item} {i : ℕ} {x : Item} : x ∈ mixItems cf C D i ↔ x ∈ C i ∨ x ∈ D i := by
  unfold mixItems
  split_ifs
  · rw [List.mem_append]
  · rw [List.mem_append, or_comm]

theorem exch_nil {P : ℕ} {A : ℕ → List Item} {ws : ℕ → List (ℕ × ℕ)} {snd rcv : ℕ → Loc} {ip : Bool} (h : ∀ i, A i = []) : Exch P A ws snd rcv ip := by
  refine ⟨?_, ?_, ?_, ?_, ?_, ?_⟩ <;> simp [h]

theorem dirItems_nil {size K : ℕ} (hK : size ≤ K) (R S : ℕ → ℕ) (rl : ℕ → ℕ → ℕ) (i : ℕ) : dirItems size K R S rl i = [] := by
  by_contra hne
  obtain ⟨x, hx⟩ := List.exists_mem_of_ne_nil _ hne
  obtain ⟨hi, Q, hQ, hst, _⟩ := mem_dirItems.1 hx
  omega

theorem mix_ok {e : Eager} {P size K : ℕ} {R S : ℕ → ℕ} {rl : ℕ → ℕ → ℕ} {act : ℕ → Prop} {f : ℕ → ℕ → ℕ} {c : ℕ} {ρ : ℕ → ℕ} {cf sch ip : Bool}
    {ctx arr count : ℕ} {ws : ℕ → List (ℕ × ℕ)} {snd rcv : ℕ → Loc} {k : ℕ → Prog V Unit} {s : St V} (hP : size ≤ P) (hC : Comm P act f c ρ)
    (hact : ∀ i, act i → i < K ∧ i < size) (hrl : ∀ i < size, ∀ Q < size, rl i Q ≤ R i) (hcnt : ∀ i, act i → c * count ≤ R i * K)
    (hctx : collCtx sch ctx ≠ 0) (harr : collArr sch arr ≠ 0) (hipK : ip = true → size ≤ K)
    (hout : ip = false → ∀ i < size, (snd i).buf ≠ (rcv i).buf) (hin : ip = true → ∀ i < size, snd i = rcv i)
    (hws1 : ∀ i < P, act i → collWs sch arr c ⊆ ws i) (hws2 : ∀ i < size, dirWs size K i ⊆ ws i)
    (h : Quiet P (fun i => (Prog.calls ((mixItems cf (collItems act f c ρ sch ctx arr count) (dirItems size K R S rl) i).flatMap
      fun x => x.ops i (snd i) (rcv i) ip)).bind fun _ => (Prog.calls ((ws i).map fun id => .wait id)).bind fun _ => k i) s)
    (hb1 : ∀ i < size, ∀ Q < size, (i ≥ K ∨ Q ≥ K) → ∀ x < rl i Q, (s i).loc.inBounds (rcv i + (R i * Q + x)))
    (hb2 : ∀ i < size, ∀ Q < size, (i ≥ K ∨ Q ≥ K) → ∀ x < rl Q i, (s i).loc.inBounds (snd i + (S i * Q + x)))
    (hb3 : ∀ i, act i → ∀ Q < c, ∀ x < count, (s i).loc.inBounds (rcv i + (Q * count + x)))
    (hb4 : ∀ i, act i → ∀ Q < c, ∀ x < count, (s i).loc.inBounds (snd i + (Q * count + x))) :
    ∃ t, Steps e s t ∧ Quiet P k t ∧ (∀ i, (t i).loc.size = (s i).loc.size) ∧
      (∀ i < size, ∀ Q < size, (i ≥ K ∨ Q ≥ K) → ∀ x < rl i Q, (t i).loc.mem (rcv i + (R i * Q + x)) = (s Q).loc.mem (snd Q + (S Q * i + x))) ∧
      (∀ i, act i → ∀ Q < c, ∀ x < count, (t i).loc.mem (rcv i + (Q * count + x)) = (s (f i Q)).loc.mem (snd (f i Q) + (ρ i * count + x))) ∧
      ∀ i < P, ∀ a, (i < size → ∀ Q < size, (i ≥ K ∨ Q ≥ K) → ∀ x < rl i Q, a ≠ rcv i + (R i * Q + x)) →
        (act i → ∀ Q < c, ∀ x < count, a ≠ rcv i + (Q * count + x)) → (t i).loc.mem a = (s i).loc.mem a := by
  have hsep : ∀ i < P, ∀ x ∈ collItems act f c ρ sch ctx arr count i, ∀ y ∈ dirItems size K R S rl i, Item.Sep i x y := by
    intro i hi x hx y hy
    obtain ⟨ha, Q, hQ, rfl⟩ := (mem_collItems (hC.lt i)).1 hx
    obtain ⟨his, Q', hQ', hst, rfl⟩ := mem_dirItems.1 hy
    refine ⟨?_, ?_, ?_⟩
    · rw [collItem_ctx]
      intro hc
      exact hctx hc.1
    · intro _ _
      rw [collItem_rid, collItem_sid]
      simp only [dirItem, ne_eq, Prod.mk.injEq]
      refine ⟨fun hc => harr hc.1, fun hc => harr hc.1, fun hc => harr hc.1, fun hc => harr hc.1⟩
    · rw [collItem_rlen, collItem_roff]
      intro j hj j' hj'
      simp only [dirItem] at hj' ⊢
      have h1 := hcnt i ha
      have h2 := rad_lt hj hQ
      have h3 : R i * K ≤ R i * Q' := Nat.mul_le_mul_left _ (by have := (hact i ha).1; omega)
      omega
  have hE : Exch P (mixItems cf (collItems act f c ρ sch ctx arr count) (dirItems size K R S rl)) ws snd rcv ip := by
    have e1 : Exch P (collItems act f c ρ sch ctx arr count) ws snd rcv ip :=
      coll_exch hC hws1 (fun hip i _ ha => hout hip i (hact i ha).2) (fun hip i _ ha => hin hip i (hact i ha).2)
    have e2 : Exch P (dirItems size K R S rl) ws snd rcv ip := by
      cases hip : ip with
      | false => exact dir_exch hP hrl hws2 fun i hi _ => hout hip i hi
      | true => exact exch_nil fun i => dirItems_nil (hipK hip) _ _ _ _
    cases cf with
    | true => exact e1.append e2 hsep
    | false => exact e2.append e1 fun i hi x hx y hy => (hsep i hi y hy x hx).symm
  obtain ⟨t, h1, h2, h3, h4, h5⟩ := exchange_ok (e := e) hE h
    (by
      intro i hi x hx j hj
      rcases mem_mixItems.1 hx with hx | hx
      · obtain ⟨ha, Q, hQ, rfl⟩ := (mem_collItems (hC.lt i)).1 hx
        rw [collItem_rlen] at hj
        rw [collItem_roff]
        exact hb3 i ha Q hQ j hj
      · obtain ⟨his, Q, hQ, hst, rfl⟩ := mem_dirItems.1 hx
        exact hb1 i his Q hQ hst j hj)
    (by
      intro i hi x hx j hj
      rcases mem_mixItems.1 hx with hx | hx
      · obtain ⟨ha, Q, hQ, rfl⟩ := (mem_collItems (hC.lt i)).1 hx
        rw [collItem_slen] at hj
        rw [collItem_soff]
        exact hb4 i ha Q hQ j hj
      · obtain ⟨his, Q, hQ, hst, rfl⟩ := mem_dirItems.1 hx
        exact hb2 i his Q hQ hst j hj)
  refine ⟨t, h1, h2, h3, ?_, ?_, ?_⟩
  · intro i hi Q hQ hst x hx
    exact h4 i (by omega) (dirItem size K R S rl i Q) (mem_mixItems.2 (Or.inr (mem_dirItems.2 ⟨hi, Q, hQ, hst, rfl⟩))) (dirItem size K R S rl Q i)
      (mem_mixItems.2 (Or.inr (mem_dirItems.2 ⟨hQ, i, hi, hst.symm, rfl⟩))) rfl rfl x hx
  · intro i ha Q hQ x hx
    obtain ⟨m1, m2, m3, m4⟩ := hC.mem i ha Q hQ
    have := h4 i (by have := (hact i ha).2; omega) (collItem sch ctx arr c count (ρ i) (f i) Q)
      (mem_mixItems.2 (Or.inl ((mem_collItems (hC.lt i)).2 ⟨ha, Q, hQ, rfl⟩)))
      (collItem sch ctx arr c count (ρ (f i Q)) (f (f i Q)) (ρ i))
      (mem_mixItems.2 (Or.inl ((mem_collItems (hC.lt _)).2 ⟨by rw [collItem_peer]; exact m2, ρ i, hC.lt i ha, by rw [collItem_peer]⟩)))
      (by rw [collItem_peer, m4 _ (hC.lt i ha), hC.self i ha]) (by rw [collItem_ctx, collItem_ctx]) x (by rw [collItem_rlen]; exact hx)
    rw [collItem_roff, collItem_soff, collItem_peer] at this
    exact this
  · intro i hi a ha1 ha2
    refine h5 i hi a fun x hx j hj => ?_
    rcases mem_mixItems.1 hx with hx | hx
    · obtain ⟨ha, Q, hQ, rfl⟩ := (mem_collItems (hC.lt i)).1 hx
      rw [collItem_rlen] at hj
      rw [collItem_roff]
      exact ha2 ha Q hQ j hj
    · obtain ⟨his, Q, hQ, hst, rfl⟩ := mem_dirItems.1 hx
      exact ha1 his Q hQ hst j hj

/-! ### The communicators -/

theorem comm_id {P K : ℕ} (hK : K ≤ P) : Comm P (· < K) (fun _ Q => Q) K id :=
  ⟨fun _ h => h, fun _ _ => rfl, fun i _ Q hQ => ⟨by omega, hQ, rfl, fun _ _ => rfl⟩⟩

theorem comm_split {P a b : ℕ} (hP : a * b ≤ P) : Comm P (· < a * b) (fun i Q => i / b * b + Q) b (· % b) := by
  refine ⟨fun i h => (Geo.mod_div_lt h).1, fun i h => ?_, fun i h Q hQ => ?_⟩
  · show i / b * b + i % b = i
    rw [Nat.mul_comm]; exact Nat.div_add_mod i b
  · have hl := rad_lt hQ (Geo.mod_div_lt h).2
    obtain ⟨u1, u2⟩ := Geo.uv (u := i / b) hQ
    refine ⟨by omega, hl, u1, fun R _ => ?_⟩
    simp only [u2]

theorem comm_split2 {P a b : ℕ} (hP : a * b ≤ P) : Comm P (· < a * b) (fun i Q => Q * b + i % b) a (· / b) := by
  refine ⟨fun i h => (Geo.mod_div_lt h).2, fun i h => ?_, fun i h Q hQ => ?_⟩
  · show i / b * b + i % b = i
    rw [Nat.mul_comm]; exact Nat.div_add_mod i b
  · have hv := (Geo.mod_div_lt h).1
    have hl := rad_lt hv hQ
    obtain ⟨u1, u2⟩ := Geo.uv (u := Q) hv
    refine ⟨by omega, hl, u2, fun R _ => ?_⟩
    simp only [u1]

theorem sorted_ext {l l' : List ℕ} (h : l.Pairwise (· < ·)) (h' : l'.Pairwise (· < ·)) (hm : ∀ x, x ∈ l ↔ x ∈ l') : l = l' :=
  h.eq_of_mem_iff h' fun x => hm x

namespace Geo
variable {g : Geo}

theorem block_eq (h : g.OK) (ha : g.a > 1) {i : ℕ} (hi : i < g.a * g.b) : (g.mt i).block = List.range (g.a * g.b) := by
  have hs := h.ab_size (Or.inl ha)
  refine sorted_ext (List.Pairwise.filter _ List.pairwise_lt_range) List.pairwise_lt_range fun x => ?_
  simp only [MT.block, commSplit, List.mem_filter, MT.communicator, List.mem_range, mt, hi, if_true, decide_eq_true_eq]
  by_cases hx : x < g.a * g.b
  · simp only [hx, if_true, and_true, iff_true]; omega
  · simp only [hx, if_false, iff_false]; simp

theorem split_eq (h : g.OK) (ha : g.a > 1) {i : ℕ} (hi : i < g.a * g.b) : (g.mt i).split = (List.range g.b).map fun Q => i / g.b * g.b + Q := by
  unfold MT.split
  rw [if_neg (show ¬ (g.mt i).a = 1 from by show ¬ g.a = 1; omega), block_eq h ha hi]
  obtain ⟨hv, hu⟩ := mod_div_lt hi
  refine sorted_ext (List.Pairwise.filter _ List.pairwise_lt_range) ?_ fun x => ?_
  · rw [List.pairwise_map]
    exact List.pairwise_lt_range.imp fun hlt => by omega
  · simp only [commSplit, List.mem_filter, List.mem_range, List.mem_map, decide_eq_true_eq, mt]
    constructor
    · rintro ⟨h1, h2⟩
      refine ⟨x % g.b, (mod_div_lt h1).1, ?_⟩
      have h2 := of_decide_eq_true h2
      rw [← h2, Nat.mul_comm]; exact Nat.div_add_mod x g.b
    · rintro ⟨Q, hQ, rfl⟩
      exact ⟨rad_lt hQ hu, decide_eq_true (uv hQ).2⟩

theorem split2_eq (h : g.OK) (ha : g.a > 1) {i : ℕ} (hi : i < g.a * g.b) : (g.mt i).split2 = (List.range g.a).map fun Q => Q * g.b + i % g.b := by
  unfold MT.split2
  rw [if_neg (show ¬ (g.mt i).a = 1 from by show ¬ g.a = 1; omega), block_eq h ha hi]
  obtain ⟨hv, hu⟩ := mod_div_lt hi
  refine sorted_ext (List.Pairwise.filter _ List.pairwise_lt_range) ?_ fun x => ?_
  · rw [List.pairwise_map]
    refine List.pairwise_lt_range.imp fun {x y} hlt => ?_
    have := (Nat.mul_lt_mul_right (show 0 < g.b by omega)).2 hlt
    omega
  · simp only [commSplit, List.mem_filter, List.mem_range, List.mem_map, decide_eq_true_eq, mt]
    constructor
    · rintro ⟨h1, h2⟩
      refine ⟨x / g.b, (mod_div_lt h1).2, ?_⟩
      have h2 := of_decide_eq_true h2
      rw [← h2, Nat.mul_comm]; exact Nat.div_add_mod x g.b
    · rintro ⟨Q, hQ, rfl⟩
      exact ⟨rad_lt hv hQ, decide_eq_true (uv hv).1⟩

theorem split2_eq1 (ha : g.a = 1) (i : ℕ) : (g.mt i).split2 = (List.range g.size).map fun Q => Q := by
  unfold MT.split2
  rw [if_pos (show (g.mt i).a = 1 from ha), List.map_id']
  rfl

theorem splitv_eq (h : g.OK) {i : ℕ} (hi : i < min g.nlast g.mlast) : (g.mt i).splitv = (List.range (min g.nlast g.mlast)).map fun Q => Q := by
  have := h.nlast
  rw [List.map_id']
  refine sorted_ext (List.Pairwise.filter _ List.pairwise_lt_range) List.pairwise_lt_range fun x => ?_
  simp only [MT.splitv, commSplit, List.mem_filter, MT.communicator, List.mem_range, mt, hi, if_true, decide_eq_true_eq]
  by_cases hx : x < min g.nlast g.mlast
  · simp only [hx, if_true, and_true, iff_true]
    show x < g.size
    omega
  · simp only [hx, if_false, iff_false]; simp

end Geo
end Fftwpp.Net
