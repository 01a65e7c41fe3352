import Verif.Proof.Exec

/-! Filling a family of memory cells with prescribed values by a sequence of loops. -/

namespace Fftwpp

/-- The cells `dst k` (for `R k`) have received the values `T k` if `done k`, and are unchanged otherwise; nothing else changed. -/
structure Fills {κ : Type} (m0 m : Mem) (R : κ → Prop) (dst : κ → Ptr) (T : κ → ℂ) (done : κ → Prop) : Prop where
  inj : ∀ k k', R k → R k' → dst k = dst k' → k = k'
  size : m.size = m0.size
  frame : ∀ p, (∀ k, R k → p ≠ dst k) → m.val p = m0.val p
  got : ∀ k, R k → done k → m.val (dst k) = T k
  keep : ∀ k, R k → ¬ done k → m.val (dst k) = m0.val (dst k)

namespace Fills
variable {κ ι : Type} {m0 m : Mem} {R : κ → Prop} {dst : κ → Ptr} {T : κ → ℂ} {done : κ → Prop}

theorem start (hinj : ∀ k k', R k → R k' → dst k = dst k' → k = k') : Fills m0 m0 R dst T (fun _ => False) :=
  ⟨hinj, rfl, fun _ _ => rfl, fun _ _ h => h.elim, fun _ _ _ => rfl⟩

theorem congr (h : Fills m0 m R dst T done) {done' : κ → Prop} (hd : ∀ k, R k → (done k ↔ done' k)) :
    Fills m0 m R dst T done' :=
  ⟨h.inj, h.size, h.frame, fun k hk hd' => h.got k hk ((hd k hk).2 hd'), fun k hk hd' => h.keep k hk (fun h' => hd' ((hd k hk).1 h'))⟩

theorem valid (h : Fills m0 m R dst T done) {p : Ptr} (hp : m0.valid p) : m.valid p := Mem.valid_of_size h.size hp

theorem all (h : Fills m0 m R dst T done) (hd : ∀ k, R k → done k) : ∀ k, R k → m.val (dst k) = T k :=
  fun k hk => h.got k hk (hd k hk)

theorem upd (h : Fills m0 m R dst T done) : m0.Upd m (fun p => ∃ k, R k ∧ p = dst k) :=
  ⟨h.size, fun p hp => h.frame p (fun k hk e => hp ⟨k, hk, e⟩)⟩

/-- A loop whose iteration `i` writes the cells `ks i`. -/
theorem par (h : Fills m0 m R dst T done) {l : List ι} {body : ι → Body Unit} (ks : ι → List κ) (hl : l.Nodup)
    (hR : ∀ i ∈ l, ∀ k ∈ ks i, R k) (hnd : ∀ i ∈ l, (ks i).Nodup)
    (hdis : ∀ i ∈ l, ∀ j ∈ l, i ≠ j → ∀ k ∈ ks i, k ∉ ks j)
    (hg : ∀ i ∈ l, (body i).Good m)
    (hw : ∀ i ∈ l, (body i).wrs m = (ks i).map fun k => (dst k, T k))
    (hrd : ∀ i ∈ l, ∀ p ∈ (body i).rds m, (∀ k, R k → p ≠ dst k) ∨ ∃ k ∈ ks i, p = dst k)
    {Q : Unit → Mem → Prop}
    (hQ : ∀ m', Fills m0 m' R dst T (fun k => done k ∨ ∃ i ∈ l, k ∈ ks i) → Q () m') :
    (Fftwpp.par l body).Ok m Q := by
  refine (par_ok hl hg ?_ ?_).mono ?_
  · intro i hi j hj hij x hx
    rw [hw i hi, List.mem_map] at hx
    obtain ⟨k, hk, rfl⟩ := hx
    refine ⟨fun hr => ?_, fun hr => ?_⟩
    · rcases hrd j hj _ hr with h1 | ⟨k', hk', h1⟩
      · exact h1 k (hR i hi k hk) rfl
      · have := h.inj _ _ (hR i hi k hk) (hR j hj k' hk') h1
        subst this
        exact hdis i hi j hj hij k hk hk'
    · rw [hw j hj, List.map_map, List.mem_map] at hr
      obtain ⟨k', hk', h1⟩ := hr
      have := h.inj _ _ (hR j hj k' hk') (hR i hi k hk) h1
      subst this
      exact hdis i hi j hj hij _ hk hk'
  · intro i hi
    rw [hw i hi, List.map_map]
    refine List.Nodup.map_on ?_ (hnd i hi)
    intro a ha b hb he
    exact h.inj a b (hR i hi a ha) (hR i hi b hb) he
  · rintro _ m' ⟨h1, h2, h3⟩
    refine hQ m' ⟨h.inj, h1.trans h.size, ?_, ?_, ?_⟩
    · intro p hp
      rw [h3 p, h.frame p hp]
      intro i hi
      rw [hw i hi, List.map_map, List.mem_map]
      rintro ⟨k, hk, e⟩
      exact hp k (hR i hi k hk) e.symm
    · intro k hk hd
      by_cases hex : ∃ i ∈ l, k ∈ ks i
      · obtain ⟨i, hi, hki⟩ := hex
        exact h2 i hi (dst k, T k) (by rw [hw i hi]; exact List.mem_map_of_mem hki)
      · have hd' : done k := hd.resolve_right hex
        rw [h3, h.got k hk hd']
        intro i hi
        rw [hw i hi, List.map_map, List.mem_map]
        rintro ⟨k', hk', e⟩
        have := h.inj _ _ (hR i hi k' hk') hk e
        subst this
        exact hex ⟨i, hi, hk'⟩
    · intro k hk hd
      have hd1 : ¬ done k := fun h' => hd (Or.inl h')
      rw [h3, h.keep k hk hd1]
      intro i hi
      rw [hw i hi, List.map_map, List.mem_map]
      rintro ⟨k', hk', e⟩
      have := h.inj _ _ (hR i hi k' hk') hk e
      subst this
      exact hd (Or.inr ⟨i, hi, hk'⟩)

/-- Iterations with one store each. -/
theorem par1 (h : Fills m0 m R dst T done) {l : List ι} {body : ι → Body Unit} (k : ι → κ) (hl : l.Nodup)
    (hR : ∀ i ∈ l, R (k i)) (hk : ∀ i ∈ l, ∀ j ∈ l, k i = k j → i = j)
    (hg : ∀ i ∈ l, (body i).Good m)
    (hw : ∀ i ∈ l, (body i).wrs m = [(dst (k i), T (k i))])
    (hrd : ∀ i ∈ l, ∀ p ∈ (body i).rds m, (∀ k, R k → p ≠ dst k) ∨ p = dst (k i))
    {Q : Unit → Mem → Prop}
    (hQ : ∀ m', Fills m0 m' R dst T (fun x => done x ∨ ∃ i ∈ l, x = k i) → Q () m') :
    (Fftwpp.par l body).Ok m Q := by
  refine h.par (fun i => [k i]) hl ?_ (fun _ _ => by simp) ?_ hg (fun i hi => by rw [hw i hi]; rfl) ?_ ?_
  · intro i hi x hx
    rw [List.mem_singleton] at hx
    subst hx; exact hR i hi
  · intro i hi j hj hij x hx hx'
    rw [List.mem_singleton] at hx hx'
    exact hij (hk i hi j hj (hx.symm.trans hx'))
  · intro i hi p hp
    rcases hrd i hi p hp with h1 | h1
    · exact Or.inl h1
    · exact Or.inr ⟨k i, by simp, h1⟩
  · intro m' hm
    exact hQ m' (hm.congr fun x _ => by simp only [List.mem_singleton])

/-- Iterations with two stores each. -/
theorem par2 (h : Fills m0 m R dst T done) {l : List ι} {body : ι → Body Unit} (k k' : ι → κ) (hl : l.Nodup)
    (hR : ∀ i ∈ l, R (k i) ∧ R (k' i)) (hk : ∀ i ∈ l, ∀ j ∈ l, k i = k j → i = j) (hk' : ∀ i ∈ l, ∀ j ∈ l, k' i = k' j → i = j)
    (hkk : ∀ i ∈ l, ∀ j ∈ l, k i ≠ k' j)
    (hg : ∀ i ∈ l, (body i).Good m)
    (hw : ∀ i ∈ l, (body i).wrs m = [(dst (k i), T (k i)), (dst (k' i), T (k' i))])
    (hrd : ∀ i ∈ l, ∀ p ∈ (body i).rds m, (∀ k, R k → p ≠ dst k) ∨ p = dst (k i) ∨ p = dst (k' i))
    {Q : Unit → Mem → Prop}
    (hQ : ∀ m', Fills m0 m' R dst T (fun x => done x ∨ ∃ i ∈ l, x = k i ∨ x = k' i) → Q () m') :
    (Fftwpp.par l body).Ok m Q := by
  refine h.par (fun i => [k i, k' i]) hl ?_ (fun i hi => by simpa using hkk i hi i hi) ?_ hg (fun i hi => by rw [hw i hi]; rfl) ?_ ?_
  · intro i hi x hx
    simp only [List.mem_cons, List.not_mem_nil, or_false] at hx
    rcases hx with rfl | rfl
    · exact (hR i hi).1
    · exact (hR i hi).2
  · intro i hi j hj hij x hx hx'
    simp only [List.mem_cons, List.not_mem_nil, or_false] at hx hx'
    rcases hx with rfl | rfl <;> rcases hx' with h1 | h1
    · exact hij (hk i hi j hj h1)
    · exact hkk i hi j hj h1
    · exact hkk j hj i hi h1.symm
    · exact hij (hk' i hi j hj h1)
  · intro i hi p hp
    rcases hrd i hi p hp with h1 | h1 | h1
    · exact Or.inl h1
    · exact Or.inr ⟨k i, by simp, h1⟩
    · exact Or.inr ⟨k' i, by simp, h1⟩
  · intro m' hm
    exact hQ m' (hm.congr fun x _ => by simp only [List.mem_cons, List.not_mem_nil, or_false])

/-- Iterations with three stores each. -/
theorem par3 (h : Fills m0 m R dst T done) {l : List ι} {body : ι → Body Unit} (k k' k'' : ι → κ) (hl : l.Nodup)
    (hR : ∀ i ∈ l, R (k i) ∧ R (k' i) ∧ R (k'' i)) (hk : ∀ i ∈ l, ∀ j ∈ l, k i = k j → i = j)
    (hk' : ∀ i ∈ l, ∀ j ∈ l, k' i = k' j → i = j) (hk'' : ∀ i ∈ l, ∀ j ∈ l, k'' i = k'' j → i = j)
    (hkk : ∀ i ∈ l, ∀ j ∈ l, k i ≠ k' j ∧ k i ≠ k'' j ∧ k' i ≠ k'' j)
    (hg : ∀ i ∈ l, (body i).Good m)
    (hw : ∀ i ∈ l, (body i).wrs m = [(dst (k i), T (k i)), (dst (k' i), T (k' i)), (dst (k'' i), T (k'' i))])
    (hrd : ∀ i ∈ l, ∀ p ∈ (body i).rds m, (∀ k, R k → p ≠ dst k) ∨ p = dst (k i) ∨ p = dst (k' i) ∨ p = dst (k'' i))
    {Q : Unit → Mem → Prop}
    (hQ : ∀ m', Fills m0 m' R dst T (fun x => done x ∨ ∃ i ∈ l, x = k i ∨ x = k' i ∨ x = k'' i) → Q () m') :
    (Fftwpp.par l body).Ok m Q := by
  refine h.par (fun i => [k i, k' i, k'' i]) hl ?_ (fun i hi => ?_) ?_ hg (fun i hi => by rw [hw i hi]; rfl) ?_ ?_
  · intro i hi x hx
    simp only [List.mem_cons, List.not_mem_nil, or_false] at hx
    rcases hx with rfl | rfl | rfl
    · exact (hR i hi).1
    · exact (hR i hi).2.1
    · exact (hR i hi).2.2
  · have := hkk i hi i hi
    simp [this]
  · intro i hi j hj hij x hx hx'
    have a := hkk i hi j hj
    have b := hkk j hj i hi
    simp only [List.mem_cons, List.not_mem_nil, or_false] at hx hx'
    rcases hx with rfl | rfl | rfl <;> rcases hx' with h1 | h1 | h1
    · exact hij (hk i hi j hj h1)
    · exact a.1 h1
    · exact a.2.1 h1
    · exact b.1 h1.symm
    · exact hij (hk' i hi j hj h1)
    · exact a.2.2 h1
    · exact b.2.1 h1.symm
    · exact b.2.2 h1.symm
    · exact hij (hk'' i hi j hj h1)
  · intro i hi p hp
    rcases hrd i hi p hp with h1 | h1 | h1 | h1
    · exact Or.inl h1
    · exact Or.inr ⟨k i, by simp, h1⟩
    · exact Or.inr ⟨k' i, by simp, h1⟩
    · exact Or.inr ⟨k'' i, by simp, h1⟩
  · intro m' hm
    exact hQ m' (hm.congr fun x _ => by simp only [List.mem_cons, List.not_mem_nil, or_false])

/-- A straight-line block. -/
theorem run (h : Fills m0 m R dst T done) {body : Body Unit} (ks : List κ) (hR : ∀ k ∈ ks, R k) (hnd : ks.Nodup)
    (hg : body.Good m) (hw : body.wrs m = ks.map fun k => (dst k, T k)) {Q : Unit → Mem → Prop}
    (hQ : ∀ m', Fills m0 m' R dst T (fun k => done k ∨ k ∈ ks) → Q () m') : (body.run).Ok m Q := by
  have hin : ∀ k ∈ ks, (m.setAll (ks.map fun k => (dst k, T k))).val (dst k) = T k := by
    intro k hk
    refine Mem.setAll_in _ _ ?_ (dst k, T k) (List.mem_map_of_mem hk)
    rw [List.map_map]
    exact List.Nodup.map_on (fun a ha b hb he => h.inj a b (hR a ha) (hR b hb) he) hnd
  have hout : ∀ p, (∀ k ∈ ks, p ≠ dst k) → (m.setAll (ks.map fun k => (dst k, T k))).val p = m.val p := by
    intro p hp
    apply Mem.setAll_notin
    rw [List.map_map, List.mem_map]
    rintro ⟨k, hk, e⟩
    exact hp k hk e.symm
  refine Body.run_ok hg ?_
  rw [hw]
  refine hQ _ ⟨h.inj, by simp [h.size], ?_, ?_, ?_⟩
  · intro p hp
    rw [hout p (fun k hk => hp k (hR k hk)), h.frame p hp]
  · intro k hk hd
    by_cases hks : k ∈ ks
    · exact hin k hks
    · rw [hout, h.got k hk (hd.resolve_right hks)]
      intro k' hk' e
      exact hks (h.inj k k' hk (hR k' hk') e ▸ hk')
  · intro k hk hd
    rw [hout, h.keep k hk (fun h' => hd (Or.inl h'))]
    intro k' hk' e
    exact hd (Or.inr (h.inj k k' hk (hR k' hk') e ▸ hk'))

end Fills
end Fftwpp
