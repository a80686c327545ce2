set_option autoImplicit false
/-
Model of the memory with one link, sstmac/hardware/logp/logp_memory_model.cc:60-102, and of the
memory that models nothing, sstmac/hardware/memory/memory_model.h:158.  Times are natural numbers.
-/
namespace SST.Mem.LogP

/-- An access: when it is asked for, its bytes and the delay of a request per byte. -/
structure Access where
  now : Nat
  bytes : Nat
  requestDelay : Nat

/-- `Link`, logp_memory_model.h:95-119. -/
structure Link where
  byteDelay : Nat
  lat : Nat
  last : Nat

/-- `Link::newAccess`, logp_memory_model.cc:88-97: the link after the access, and the delay. -/
def newAccess (l : Link) (a : Access) : Link × Nat :=
  let actual := a.requestDelay + l.byteDelay
  let base := max a.now l.last
  let access := l.lat + actual * a.bytes
  let last := base + access
  ({ l with last := last }, last - a.now)

/-- `accessFlow`, logp_memory_model.cc:73-80, for one access after the other: the times of the
callbacks. -/
def accessFlows (l : Link) : List Access → List Nat
  | [] => []
  | a :: as => (a.now + (newAccess l a).2) :: accessFlows (newAccess l a).1 as

/-- `NullMemoryModel::accessFlow`, memory_model.h:158: the times of the callbacks. -/
def nullFlows (_ : List Access) : List Nat := []

end SST.Mem.LogP
