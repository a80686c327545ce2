import Verif.Nic.InjectProps
/-
C76: which messages go through the network model and which take the overlay that has no contention
(sstmac/hardware/nic/nic.cc).
-/
set_option autoImplicit false
namespace SST.Nic

/-- The value of a `uint64_t` passed as an `int`: the low 32 bits, in two's complement. -/
def asInt (n : Nat) : Int := (BitVec.ofNat 32 n).toInt

/-- `NIC::negligibleSize`, nic.h:209-211: its argument is an `int`, so the `uint64_t` length is cut. -/
def negligible (threshold : Int) (len : Nat) : Bool := decide (asInt len ≤ threshold)

/-- Where `NIC::internodeSend` sends a message, nic.cc:312-329. -/
inductive Way
  | overlay
  | network
deriving DecidableEq, Repr

/-- `NIC::internodeSend`, nic.cc:312-329, for a valid destination. -/
def internodeSend (threshold : Int) (f : Flow) : Way := if negligible threshold f.len then .overlay else .network

/-- **C76**, partial: for messages below 2^31 bytes. They take the overlay exactly when they are not
longer than the threshold. -/
theorem C76_small_partial (threshold : Int) (f : Flow) (h : f.len < 2147483648) :
    internodeSend threshold f = .overlay ↔ (f.len : Int) ≤ threshold := by
  have : asInt f.len = f.len := by
    unfold asInt
    rw [BitVec.toInt_eq_toNat_cond, BitVec.toNat_ofNat, Nat.mod_eq_of_lt (by omega), if_pos (by omega)]
  unfold internodeSend negligible
  rw [this]
  simp

/-- Both ways occur with the default threshold, nic.cc:72. -/
example : internodeSend 256 ⟨0, 256⟩ = .overlay ∧ internodeSend 256 ⟨0, 257⟩ = .network := by decide

/-- **C76** (refuted). Every message of 2^31 up to 2^32 - 1 bytes, and every message whose length is a
multiple of 2^32, bypasses the network with any threshold that is not negative. -/
theorem C76_large_refuted (threshold : Int) (ht : 0 ≤ threshold) (f : Flow) (h : 2147483648 ≤ f.len % 4294967296 ∨ f.len % 4294967296 = 0) :
    internodeSend threshold f = .overlay := by
  have : asInt f.len ≤ 0 := by
    unfold asInt
    rw [BitVec.toInt_eq_toNat_cond, BitVec.toNat_ofNat]
    split <;> omega
  unfold internodeSend negligible
  rw [if_pos]
  simp
  omega

/-- A message of 3 GB and one of 4 GB with the default threshold of 256 bytes. -/
example : internodeSend 256 ⟨0, 3000000000⟩ = .overlay ∧ internodeSend 256 ⟨0, 4294967296⟩ = .overlay := by decide

/-- A message that `internodeSend` passes on with a threshold that is not negative is never empty, as
C53 asks. -/
theorem C53_network_not_empty (threshold : Int) (ht : 0 ≤ threshold) (f : Flow) (h : internodeSend threshold f = .network) : 0 < f.len := by
  apply Classical.byContradiction
  intro hn
  have h0 : f.len = 0 := by omega
  rw [C76_large_refuted threshold ht f (Or.inr (by omega))] at h
  cases h

end SST.Nic
