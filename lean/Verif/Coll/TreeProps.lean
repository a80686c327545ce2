import Verif.Coll.Tree
/-!
C37 (identifiers of collective actions) and C38 (virtual ranks).
-/
set_option autoImplicit false
namespace SST.Coll

theorem rankMap_spec (m : RankMap) (h : m.nproc ≤ m.virtualNproc ∧ m.virtualNproc < 2 * m.nproc) :
    (∀ v, v < m.virtualNproc → m.virtualToReal v < m.nproc) ∧
    (∀ r v, r < m.nproc → (v ∈ m.realToVirtual r ↔ v < m.virtualNproc ∧ m.virtualToReal v = r)) ∧
    (∀ r, r < m.nproc → (m.realToVirtual r).Nodup) := by
  obtain ⟨n, N⟩ := m
  simp only at h
  refine ⟨?_, ?_, ?_⟩
  · intro v hv
    simp only [RankMap.virtualToReal]
    simp only at hv
    split <;> omega
  · intro r v hr
    simp only [RankMap.virtualToReal, RankMap.realToVirtual]
    simp only at hr
    split
    · simp only [List.mem_singleton]
      split <;> omega
    · simp only [List.mem_cons, List.not_mem_nil, or_false]
      split <;> omega
  · intro r _
    simp only [RankMap.realToVirtual]
    split <;> simp

/-- C38: every virtual rank belongs to exactly one existing rank, and the virtual ranks
listed for a rank are exactly those assigned to it, without repetition. -/
theorem C38_virtual_ranks (n : Nat) (hn : 1 ≤ n) :
    (∀ v, v < (rankMap n).virtualNproc → (rankMap n).virtualToReal v < n) ∧
    (∀ r v, r < n → (v ∈ (rankMap n).realToVirtual r ↔
      v < (rankMap n).virtualNproc ∧ (rankMap n).virtualToReal v = r)) ∧
    (∀ r, r < n → ((rankMap n).realToVirtual r).Nodup) :=
  rankMap_spec (rankMap n) (virtualNproc_lt n hn)

/-- C38: the virtual size is a power of two and no rank has more than two virtual ranks. -/
theorem C38_power_of_two (n : Nat) :
    (∃ k, (rankMap n).virtualNproc = 2 ^ k) ∧
    ∀ r, r < n → 1 ≤ ((rankMap n).realToVirtual r).length ∧ ((rankMap n).realToVirtual r).length ≤ 2 := by
  constructor
  · obtain ⟨k, _, h, _⟩ := computeTree_spec n
    exact ⟨k, h⟩
  · intro r _
    simp only [RankMap.realToVirtual]
    split <;> simp

example : (rankMap 5).virtualNproc = 8 ∧ (List.range 5).map (rankMap 5).realToVirtual =
    [[0, 1], [2, 3], [4, 5], [6], [7]] ∧ (List.range 8).map (rankMap 5).virtualToReal =
    [0, 0, 1, 1, 2, 2, 3, 4] := by decide

theorem messageId_toNat (ty r p : Nat) (hr : r < 500) (ht : ty < 6) (hp : p < 1431655) :
    (messageId ty r (p : Int)).toNat = p * 3000 + r * 6 + ty := by
  unfold messageId
  simp only [BitVec.toNat_add, BitVec.toNat_mul, BitVec.toNat_ofNat, BitVec.toNat_ofInt]
  have : ((p : Int) % ((2 ^ 32 : Nat) : Int)).toNat = p := by
    have h : (p : Int) % ((2 ^ 32 : Nat) : Int) = p := Int.emod_eq_of_lt (by omega) (by omega)
    rw [h]; omega
  rw [this]
  omega

/-- C37 (rounds below 500, partners below 1431655): the identifier of an action determines
its type, round and partner. -/
theorem C37_decodable_partial (ty r p : Nat) (ht : ty < 6) (hr : r < 500) (hp : p < 1431655) :
    details (messageId ty r (p : Int)) = (ty, r, p) := by
  unfold details
  rw [messageId_toNat ty r p hr ht hp]
  have h1 : (p * 3000 + r * 6 + ty) / 500 / 6 = p := by omega
  simp only [h1, Prod.mk.injEq, and_true]
  constructor <;> omega

/-- C37 (same ranges): different actions have different identifiers. -/
theorem C37_unique_partial (ty r p ty' r' p' : Nat) (ht : ty < 6) (hr : r < 500) (hp : p < 1431655)
    (ht' : ty' < 6) (hr' : r' < 500) (hp' : p' < 1431655)
    (h : messageId ty r (p : Int) = messageId ty' r' (p' : Int)) : ty = ty' ∧ r = r' ∧ p = p' := by
  have h1 := C37_decodable_partial ty r p ht hr hp
  rw [h, C37_decodable_partial ty' r' p' ht' hr' hp'] at h1
  simp only [Prod.mk.injEq] at h1
  omega

example : details (messageId 1 499 1431654) = (1, 499, 1431654) ∧ messageId 0 3 7 ≠ messageId 1 3 7 := by decide

/-- Actions that always talk to the same partner (ring collectives) keep distinct
identifiers for as many rounds as fit in 32 bits, also beyond round 500. -/
theorem C37_one_partner (ty r r' p : Nat) (ht : ty < 6) (hr : p * 3000 + r * 6 + ty < 2 ^ 32)
    (hr' : p * 3000 + r' * 6 + ty < 2 ^ 32) (h : messageId ty r (p : Int) = messageId ty r' (p : Int)) :
    r = r' := by
  have key : ∀ s : Nat, p * 3000 + s * 6 + ty < 2 ^ 32 → (messageId ty s (p : Int)).toNat = p * 3000 + s * 6 + ty := by
    intro s hs
    unfold messageId
    simp only [BitVec.toNat_add, BitVec.toNat_mul, BitVec.toNat_ofNat, BitVec.toNat_ofInt]
    have : ((p : Int) % ((2 ^ 32 : Nat) : Int)).toNat = p := by
      have h : (p : Int) % ((2 ^ 32 : Nat) : Int) = p := Int.emod_eq_of_lt (by omega) (by omega)
      rw [h]; omega
    rw [this]
    omega
  have h1 := key r hr
  have h2 := key r' hr'
  rw [h] at h1
  omega

/-- C37 does not hold without the bounds: nothing stops a collective from using round 500 or
more, and such a round has the identifier of another partner's action; a partner at or above
1431655 wraps around 32 bits and is decoded wrongly. -/
theorem C37_unique_refuted :
    (∃ ty r p r' p' : Nat, (r, p) ≠ (r', p') ∧ messageId ty r (p : Int) = messageId ty r' (p' : Int)) ∧
    (∃ ty r p : Nat, r < 500 ∧ ty < 6 ∧ details (messageId ty r (p : Int)) ≠ (ty, r, p)) :=
  ⟨⟨0, 500, 3, 0, 4, by decide, by decide⟩, ⟨0, 499, 1431655, by decide, by decide, by decide⟩⟩

end SST.Coll
