import Verif.Model.NewAlign
import Verif.Props.Align

/-!
# C67: arrays of objects in aligned memory
-/

namespace Fftwpp
namespace Align

theorem constructLoop_eq (v sz : BitVec 64) (n i : ℕ) :
    constructLoop v sz i n = (List.range' i n).map fun j => .construct (elt v sz j) := by
  induction n generalizing i with
  | zero => rfl
  | succ n ih => rw [constructLoop, ih, List.range'_succ, List.map_cons]

theorem destroyLoop_eq (v sz : BitVec 64) (n : ℕ) :
    destroyLoop v sz n = ((List.range n).reverse).map fun j => .destroy (elt v sz j) := by
  induction n with
  | zero => rfl
  | succ n ih => rw [destroyLoop, ih, List.range_succ, List.reverse_append, List.reverse_singleton, List.singleton_append, List.map_cons]

theorem elt_toNat {v sz : BitVec 64} {n : ℕ} (h : v.toNat + n * sz.toNat < 2 ^ 64) (hn : n < 2 ^ 64) {i : ℕ} (hi : i ≤ n) :
    (elt v sz i).toNat = v.toNat + i * sz.toNat := by
  have h1 : i * sz.toNat ≤ n * sz.toNat := Nat.mul_le_mul_right _ hi
  unfold elt
  rw [BitVec.toNat_add, BitVec.toNat_mul, BitVec.toNat_ofNat, Nat.mod_eq_of_lt (lt_of_le_of_lt hi hn), Nat.mod_eq_of_lt (a := i * sz.toNat) (by omega),
    Nat.mod_eq_of_lt (by omega)]

/-- **C67**: under the hypotheses of C65 on the alignment and `malloc`, if the size of the array is below 2^64: `newAlign` constructs `len` objects, in increasing order,
one after the other from an aligned address, all in the block that `malloc` returned (after the word that holds its address), and prints nothing; whatever the user does
to the objects, `deleteAlign` destroys the same objects in decreasing order and then frees this block. -/
theorem C67_lifecycle {malloc : BitVec 64 → BitVec 64} {sz len al : BitVec 64} {k : ℕ} (hk : al.toNat = 2 ^ k) (h8 : 8 ∣ al.toNat)
    (hs : malloc (len * sz + al) ≠ 0) (hp : 8 ∣ (malloc (len * sz + al)).toNat)
    (hb : (malloc (len * sz + al)).toNat + (len.toNat * sz.toNat + al.toNat) < 2 ^ 64) (w : Words) :
    ∃ (A : List (BitVec 64)) (v : BitVec 64) (w' : Words),
      newAlign malloc sz len al w = (v, w', A.map .construct) ∧ A.length = len.toNat ∧ al.toNat ∣ v.toNat ∧
      (∀ (i : ℕ) (h : i < A.length), (A[i]).toNat = v.toNat + i * sz.toNat) ∧
      (∀ a ∈ A, (malloc (len * sz + al)).toNat + 8 ≤ a.toNat ∧
        a.toNat + sz.toNat ≤ (malloc (len * sz + al)).toNat + (len.toNat * sz.toNat + al.toNat)) ∧
      (len * sz + al).toNat = len.toNat * sz.toNat + al.toNat ∧
      (∀ a : BitVec 64, (a.toNat + 8 ≤ v.toNat - 8 ∨ v.toNat ≤ a.toNat) → w' a = w a) ∧
      ∀ w'' : Words, (∀ a : BitVec 64, a.toNat + 8 = v.toNat → w'' a = w' a) →
        deleteAlign sz v len w'' = A.reverse.map .destroy ++ [.free (malloc (len * sz + al))] := by
  have hm : (len * sz).toNat = len.toNat * sz.toNat := by
    rw [BitVec.toNat_mul]
    exact Nat.mod_eq_of_lt (by omega)
  obtain ⟨p, w', e, hal, hge, hle, hsum, hw, hf⟩ := C65_memalign hk h8 hs hp (by rw [hm]; exact hb) w
  rw [hm] at hle hsum
  rw [hsum] at hle
  have hbd : p.toNat + len.toNat * sz.toNat < 2 ^ 64 := by omega
  have hi : ∀ i ≤ len.toNat, (elt p sz i).toNat = p.toNat + i * sz.toNat := fun i h => elt_toNat hbd len.isLt h
  refine ⟨(List.range len.toNat).map (elt p sz), p, w', ?_, by simp, hal, ?_, ?_, hsum, hw, fun w'' h => ?_⟩
  · unfold newAlign
    rw [e]
    simp only [constructLoop_eq, List.map_map, List.range_eq_range']
    rfl
  · intro i h
    rw [List.length_map, List.length_range] at h
    rw [List.getElem_map, List.getElem_range, hi i h.le]
  · intro a ha
    obtain ⟨i, h, rfl⟩ := List.mem_map.1 ha
    rw [List.mem_range] at h
    have h1 : (i + 1) * sz.toNat ≤ len.toNat * sz.toNat := Nat.mul_le_mul_right _ h
    rw [Nat.add_mul, Nat.one_mul] at h1
    rw [hi i h.le]
    omega
  · unfold deleteAlign
    rw [hf w'' h, destroyLoop_eq, ← List.map_reverse, List.map_map]
    rfl

/-- A failure is reported, but not more: the `len` objects are constructed nevertheless, from the address 0 on. -/
theorem C67_failure_refuted (malloc : BitVec 64 → BitVec 64) (sz len al : BitVec 64) (w : Words) :
    (al ≠ 0 → ¬ (8 ∣ al.toNat ∧ ∃ k, al.toNat = 2 ^ k) →
      newAlign malloc sz len al w = (0, w, .invalid :: (List.range len.toNat).map fun i => .construct (BitVec.ofNat 64 i * sz))) ∧
    (8 ∣ al.toNat → (∃ k, al.toNat = 2 ^ k) → malloc (len * sz + al) = 0 →
      newAlign malloc sz len al w = (0, w, .nomem :: (List.range len.toNat).map fun i => .construct (BitVec.ofNat 64 i * sz))) := by
  have e0 : ∀ i : ℕ, elt 0 sz i = BitVec.ofNat 64 i * sz := fun i => by simp [elt]
  refine ⟨fun h0 h => ?_, fun h8 hk hz => ?_⟩
  · unfold newAlign
    rw [((C65_errors malloc al (len * sz) w).1 h0).1 h]
    simp only [constructLoop_eq, e0, List.range_eq_range']
  · unfold newAlign
    rw [(C65_errors malloc al (len * sz) w).2.1 h8 hk hz]
    simp only [constructLoop_eq, e0, List.range_eq_range']

/-- The product `len*sizeof(T)` may overflow: for 2^60 objects of 16 bytes aligned to 32 bytes, `malloc` is asked for 32 bytes, and 2^60 objects are constructed. -/
theorem C67_overflow_refuted (malloc : BitVec 64 → BitVec 64) (w : Words) (h : malloc 32 ≠ 0) :
    ∃ (v : BitVec 64) (w' : Words) (A : List (BitVec 64)), newAlign malloc 16 (BitVec.ofNat 64 (2 ^ 60)) 32 w = (v, w', A.map .construct) ∧ A.length = 2 ^ 60 := by
  obtain ⟨p, w', e⟩ : ∃ (p : BitVec 64) (w' : Words), posixMemalign0 malloc 32 (BitVec.ofNat 64 (2 ^ 60) * 16) w = .ok p w' := by
    unfold posixMemalign0
    rw [if_neg (by decide)]
    simp only [show BitVec.ofNat 64 (2 ^ 60) * 16 + 32 = (32 : BitVec 64) by decide, if_neg h]
    exact ⟨_, _, rfl⟩
  refine ⟨p, w', (List.range' 0 (2 ^ 60)).map (elt p 16), ?_, by rw [List.length_map, List.length_range']⟩
  unfold newAlign
  rw [e]
  simp only [constructLoop_eq, List.map_map, show (BitVec.ofNat 64 (2 ^ 60)).toNat = 2 ^ 60 by decide]
  rfl

/-- The hypotheses are met: 100 objects of 16 bytes, aligned to 32 bytes. -/
example : ∃ (malloc : BitVec 64 → BitVec 64) (sz len al : BitVec 64) (k : ℕ), al.toNat = 2 ^ k ∧ 8 ∣ al.toNat ∧ malloc (len * sz + al) ≠ 0 ∧
    8 ∣ (malloc (len * sz + al)).toNat ∧ (malloc (len * sz + al)).toNat + (len.toNat * sz.toNat + al.toNat) < 2 ^ 64 ∧ len.toNat = 100 :=
  ⟨fun _ => 0x1008, 16, 100, 32, 5, by decide, by decide, by decide, by decide, by decide, by decide⟩

end Align
end Fftwpp
