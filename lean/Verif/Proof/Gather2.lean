import Verif.Proof.Gather

/-!
# The gather skeleton: all processes
-/

namespace Fftwpp.Net
variable {V α : Type}

/-- The initial state: the processes `i < P` are about to run `prog i` in the states `σ i`. -/
def start (P : ℕ) (prog : ℕ → Prog V Unit) (σ : ℕ → Local V) : St V := fun i => ⟨if i < P then prog i else .ret (), σ i⟩

/-- No message is in transit: every message sent has been received. -/
def Balanced (P : ℕ) (σ : ℕ → Local V) : Prop :=
  ∀ i < P, ∀ j < P, ∀ ctx, ((σ i).sent (j, ctx)).length = (σ j).rcvd (i, ctx)

/-- The common skeleton of the gather routines. -/
def gatherG (nd : ℕ) (cnt : List ℕ → ℕ) (pl : List ℕ → Loc → Prog (ℕ ⊕ α) Unit) (hs : List ℕ) (part : Loc) (size rank : ℕ) :
    Prog (ℕ ⊕ α) Unit :=
  if rank = 0 then (pl hs part).bind fun _ => .loop (List.range' 1 (size - 1)) (bodyG nd cnt pl) else senderG nd cnt hs part

/-- The outcome of a gather. -/
structure Gathered (size : ℕ) (whole : Loc) (part : ℕ → Loc) (pairs : ℕ → List (ℕ × ℕ)) (σ : ℕ → Local V) (f : St V) : Prop where
  fin : Finished size f
  idle : ∀ i < size, Idle (f i).loc
  data : ∀ q < size, ∀ x ∈ pairs q, (f 0).loc.mem (whole + x.1) = (σ q).mem (part q + x.2)
  keep0 : ∀ a : Loc, a.buf ≠ 2 → a.buf ≠ 3 → (∀ q < size, ∀ x ∈ pairs q, a ≠ whole + x.1) → (f 0).loc.mem a = (σ 0).mem a
  keep : ∀ i < size, i ≠ 0 → ∀ a : Loc, a.buf ≠ 2 → (f i).loc.mem a = (σ i).mem a
  sizes : ∀ i < size, (f i).loc.size = (σ i).size

theorem gather_loop {e : Eager} {size nd : ℕ} {cnt : List ℕ → ℕ} {pl : List ℕ → Loc → Prog (ℕ ⊕ α) Unit} {H : ℕ → List ℕ}
    {part : ℕ → Loc} {whole : Loc} {σ : ℕ → Local (ℕ ⊕ α)} {pairs : ℕ → List (ℕ × ℕ)}
    (hnd : ∀ q < size, (H q).length = nd) (hidle : ∀ q < size, Idle (σ q)) (hbal : Balanced size σ)
    (hpart : ∀ q < size, (part q).buf ≠ 2) (hpb : ∀ q < size, ∀ j < cnt (H q), (σ q).inBounds (part q + j))
    (hpl : ∀ q < size, PlaceSpec (pl (H q)) whole (pairs q) (cnt (H q))) (hw2 : whole.buf ≠ 2) (hw3 : whole.buf ≠ 3)
    (hwb : ∀ q < size, ∀ x ∈ pairs q, (σ 0).inBounds (whole + x.1)) (hpj : ∀ q < size, ∀ x ∈ pairs q, x.2 < cnt (H q))
    (hdis : ∀ q < size, ∀ q' < size, q ≠ q' → ∀ x ∈ pairs q, ∀ y ∈ pairs q', x.1 ≠ y.1) :
    ∀ (n p : ℕ) (s : St (ℕ ⊕ α)) (ρ : Local (ℕ ⊕ α)), 1 ≤ p → p + n = size →
      s 0 = ⟨.loop (List.range' p n) (bodyG nd cnt pl), ρ⟩ →
      (∀ q, p ≤ q → q < size → s q = ⟨senderG nd cnt (H q) (part q), σ q⟩) →
      (∀ q, size ≤ q → (s q).prog = .ret ()) →
      (∀ q, 1 ≤ q → q < p → (s q).prog = .ret () ∧ Idle (s q).loc ∧ (s q).loc.size = (σ q).size ∧ (s q).loc.rcvd = (σ q).rcvd ∧
        (∀ c, c ≠ (0, 0) → (s q).loc.sent c = (σ q).sent c) ∧ ((s q).loc.sent (0, 0)).length = ρ.rcvd (q, 0) ∧
        ∀ a : Loc, a.buf ≠ 2 → (s q).loc.mem a = (σ q).mem a) →
      Idle ρ → ρ.size = (σ 0).size → ρ.sent = (σ 0).sent → (∀ q c, (q = 0 ∨ p ≤ q ∨ c ≠ 0) → ρ.rcvd (q, c) = (σ 0).rcvd (q, c)) →
      (∀ q < p, ∀ x ∈ pairs q, ρ.mem (whole + x.1) = (σ q).mem (part q + x.2)) →
      (∀ a : Loc, a.buf ≠ 2 → a.buf ≠ 3 → (∀ q < p, ∀ x ∈ pairs q, a ≠ whole + x.1) → ρ.mem a = (σ 0).mem a) →
      ∃ f, Steps e s f ∧ (∀ i, (f i).prog = .ret ()) ∧ Gathered size whole part pairs σ f := by
  intro n
  induction n with
  | zero =>
    intro p s ρ hp1 hpn h0 hq hge hdone hρ hρs hρsent hρr hρm hρk
    have hps : p = size := by omega
    subst hps
    refine ⟨s, Steps.refl e s, ?_, ?_, ?_, ?_, ?_, ?_, ?_⟩
    · intro i
      by_cases hi : i = 0
      · subst hi; rw [h0]; rfl
      · by_cases hi2 : i < p
        · exact (hdone i (by omega) hi2).1
        · exact hge i (by omega)
    · refine ⟨fun i hi => ?_, fun i hi j hj ctx => ?_⟩
      · by_cases hi0 : i = 0
        · subst hi0; rw [h0]; exact ⟨rfl, hρ.req⟩
        · have := hdone i (by omega) hi
          exact ⟨this.1, this.2.1.req⟩
      · have hr : ∀ c, (s j).loc.rcvd (i, c) = if j = 0 then ρ.rcvd (i, c) else (σ j).rcvd (i, c) := by
          intro c
          by_cases hj0 : j = 0
          · subst hj0; rw [h0]; simp
          · rw [(hdone j (by omega) hj).2.2.2.1]; simp [hj0]
        have hb := hbal i hi j hj ctx
        by_cases hi0 : i = 0
        · subst hi0
          rw [h0]
          show (ρ.sent _).length = _
          rw [hρsent, hr, hb]
          split_ifs with hj0
          · subst hj0; exact (hρr 0 ctx (Or.inl rfl)).symm
          · rfl
        · have hd := hdone i (by omega) hi
          rw [hr]
          by_cases hc : (j, ctx) = (0, 0)
          · obtain ⟨rfl, rfl⟩ := Prod.mk.inj hc
            simp only [if_true]
            exact hd.2.2.2.2.2.1
          · rw [hd.2.2.2.2.1 _ hc, hb]
            split_ifs with hj0
            · subst hj0
              exact (hρr i ctx (Or.inr (Or.inr (fun h => hc (by rw [h]))))).symm
            · rfl
    · intro i hi
      by_cases hi0 : i = 0
      · subst hi0; rw [h0]; exact hρ
      · exact (hdone i (by omega) hi).2.1
    · intro q hq x hx
      rw [h0]; exact hρm q hq x hx
    · intro a h2 h3 hx
      rw [h0]; exact hρk a h2 h3 hx
    · intro i hi hi0 a ha
      exact (hdone i (by omega) hi).2.2.2.2.2.2 a ha
    · intro i hi
      by_cases hi0 : i = 0
      · subst hi0; rw [h0]; exact hρs
      · exact (hdone i (by omega) hi).2.2.1
  | succ n ih =>
    intro p s ρ hp1 hpn h0 hq hge hdone hρ hρs hρsent hρr hρm hρk
    have hp : p < size := by omega
    rw [List.range'_succ] at h0
    obtain ⟨ρ', τ', st, i1, i2, hsz, hsent, hrc, hrc', hst', hlen, hsz', hmem', hmw, hmo⟩ :=
      exchange (e := e) (s := s) (p := p) (nd := nd) (cnt := cnt) (pl := pl) (hs := H p) (part := part p) (whole := whole)
        (f := fun _ => Prog.loop (List.range' (p + 1) n) (bodyG nd cnt pl)) (σ := ρ) (τ := σ p) (pairs := pairs p) (by omega) (hnd p hp) h0
        (hq p le_rfl hp) hρ (hidle p hp) (by
          rw [hρr p 0 (by omega)]
          exact hbal p hp 0 (by omega) 0) (hpart p hp) (hpb p hp) (hpl p hp) hw2 hw3 (by
          intro x hx
          have := hwb p hp x hx
          unfold Local.inBounds at this ⊢
          rwa [hρs]) (hpj p hp)
    obtain ⟨f, hf1, hf2, hf3⟩ := ih (p + 1)
      (upd2 s p ⟨.ret (), τ'⟩ ⟨Prog.loop (List.range' (p + 1) n) (bodyG nd cnt pl), ρ'⟩) ρ' (by omega) (by omega) (upd2_zero s p _ _)
      (by
        intro q h1 h2
        simp only [upd2, show q ≠ 0 by omega, show q ≠ p by omega, if_false]
        exact hq q (by omega) h2)
      (by
        intro q h1
        simp only [upd2, show q ≠ 0 by omega, show q ≠ p by omega, if_false]
        exact hge q h1)
      (by
        intro q h1 h2
        by_cases hqp : q = p
        · subst hqp
          rw [upd2_p s (show q ≠ 0 by omega)]
          exact ⟨rfl, i2, hsz', hrc', hst', hlen, hmem'⟩
        · simp only [upd2, show q ≠ 0 by omega, hqp, if_false]
          obtain ⟨a1, a2, a3, a4, a5, a6, a7⟩ := hdone q h1 (by omega)
          refine ⟨a1, a2, a3, a4, a5, ?_, a7⟩
          rw [a6, hrc]
          intro h
          exact hqp (Prod.mk.inj h).1)
      i1 (hsz.trans hρs) (hsent.trans hρsent)
      (by
        intro q c h
        by_cases hqp : (q, c) = (p, 0)
        · obtain ⟨rfl, rfl⟩ := Prod.mk.inj hqp; omega
        · rw [hrc _ hqp]
          refine hρr q c ?_
          rcases h with h | h | h
          · exact Or.inl h
          · exact Or.inr (Or.inl (by omega))
          · exact Or.inr (Or.inr h))
      (by
        intro q hqp x hx
        by_cases h : q = p
        · subst h; exact hmw x hx
        · rw [hmo]
          · exact hρm q (by omega) x hx
          · simpa using hw2
          · simpa using hw3
          · intro y hy heq
            exact hdis q (by omega) p hp h x hx y hy (by simpa [Loc.ext_iff] using heq))
      (by
        intro a h2 h3 hx
        rw [hmo a h2 h3 (hx p (by omega))]
        exact hρk a h2 h3 fun q hqp => hx q (by omega))
    exact ⟨f, st.trans hf1, hf2, hf3⟩

/-- Every run of the gather skeleton ends, and properly. -/
theorem gatherG_ok {e : Eager} {size nd : ℕ} {cnt : List ℕ → ℕ} {pl : List ℕ → Loc → Prog (ℕ ⊕ α) Unit} {H : ℕ → List ℕ}
    {part : ℕ → Loc} {whole : Loc} {σ : ℕ → Local (ℕ ⊕ α)} {pairs : ℕ → List (ℕ × ℕ)} (hsize : 1 ≤ size)
    (hnd : ∀ q < size, (H q).length = nd) (hidle : ∀ q < size, Idle (σ q)) (hbal : Balanced size σ)
    (hpart : ∀ q < size, (part q).buf ≠ 2) (hpb : ∀ q < size, ∀ j < cnt (H q), (σ q).inBounds (part q + j))
    (hpl : ∀ q < size, PlaceSpec (pl (H q)) whole (pairs q) (cnt (H q))) (hw2 : whole.buf ≠ 2) (hw3 : whole.buf ≠ 3)
    (hp0 : (part 0).buf ≠ whole.buf)
    (hwb : ∀ q < size, ∀ x ∈ pairs q, (σ 0).inBounds (whole + x.1)) (hpj : ∀ q < size, ∀ x ∈ pairs q, x.2 < cnt (H q))
    (hdis : ∀ q < size, ∀ q' < size, q ≠ q' → ∀ x ∈ pairs q, ∀ y ∈ pairs q', x.1 ≠ y.1) :
    AllRuns e (start size (fun r => gatherG nd cnt pl (H r) (part r) size r) σ) (Gathered size whole part pairs σ) := by
  let s0 : St (ℕ ⊕ α) := start size (fun r => gatherG nd cnt pl (H r) (part r) size r) σ
  obtain ⟨m, hm1, hm2, hm3⟩ := hpl 0 (by omega) e 0 (fun j => (s0 j).loc) (part 0) (σ 0) hp0 (hidle 0 (by omega)).req (hwb 0 (by omega)) (hpb 0 (by omega))
  have st := phase1 (e := e) (s := s0) 0 (x := pl (H 0) (part 0)) (f := fun _ => .loop (List.range' 1 (size - 1)) (bodyG nd cnt pl)) (a := ())
    (by simp [s0, start, gatherG, show 0 < size by omega]) hm1
  obtain ⟨f, hf1, hf2, hf3⟩ := gather_loop (e := e) hnd hidle hbal hpart hpb hpl hw2 hw3 hwb hpj hdis (size - 1) 1 _ { σ 0 with mem := m } le_rfl (by omega)
    (Function.update_self 0 _ s0)
    (by
      intro q h1 h2
      rw [Function.update_of_ne (by omega)]
      simp [s0, start, gatherG, h2, show q ≠ 0 by omega])
    (by
      intro q h1
      rw [Function.update_of_ne (by omega)]
      simp [s0, start, show ¬ q < size by omega])
    (by intro q h1 h2; omega)
    ⟨(hidle 0 (by omega)).req, (hidle 0 (by omega)).s2, (hidle 0 (by omega)).s3⟩ rfl rfl (fun _ _ _ => rfl)
    (by
      intro q hq x hx
      have : q = 0 := by omega
      subst this
      exact hm2 x hx)
    (by
      intro a _ _ hx
      exact hm3 a (hx 0 (by omega)))
  exact allRuns (st.trans hf1) hf2 hf3

end Fftwpp.Net
