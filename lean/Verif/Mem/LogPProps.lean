import Verif.Mem.LogP
set_option autoImplicit false
/-
Memory with one link: accesses are served one after the other, each for as long as its size says,
and none waits while the memory is free.
-/
namespace SST.Mem.LogP

/-- How long an access takes by itself. -/
def duration (byteDelay lat : Nat) (a : Access) : Nat := lat + (a.requestDelay + byteDelay) * a.bytes

theorem accessFlows_cons (l : Link) (a : Access) (as : List Access) :
    accessFlows l (a :: as) = (max a.now l.last + duration l.byteDelay l.lat a) ::
      accessFlows { l with last := max a.now l.last + duration l.byteDelay l.lat a } as := by
  have := Nat.le_max_left a.now l.last
  simp only [accessFlows, newAccess, duration]
  congr 1
  omega

/-- Every access ends once; the first that finds the memory free ends after its duration; every other
one starts when it is asked for or when the one before it ends, whichever is later. -/
theorem C114_logp (byteDelay lat : Nat) (as : List Access) :
    (accessFlows ⟨byteDelay, lat, 0⟩ as).length = as.length ∧
    (∀ a t, as[0]? = some a → (accessFlows ⟨byteDelay, lat, 0⟩ as)[0]? = some t → t = a.now + duration byteDelay lat a) ∧
    ∀ (i : Nat) (a : Access) (t t' : Nat), as[i + 1]? = some a → (accessFlows ⟨byteDelay, lat, 0⟩ as)[i]? = some t →
      (accessFlows ⟨byteDelay, lat, 0⟩ as)[i + 1]? = some t' → t' = max a.now t + duration byteDelay lat a := by
  have key : ∀ (as : List Access) (last : Nat), (accessFlows ⟨byteDelay, lat, last⟩ as).length = as.length ∧
      ∀ (i : Nat) (a : Access) (t t' : Nat), as[i + 1]? = some a → (accessFlows ⟨byteDelay, lat, last⟩ as)[i]? = some t →
      (accessFlows ⟨byteDelay, lat, last⟩ as)[i + 1]? = some t' → t' = max a.now t + duration byteDelay lat a := by
    intro as
    induction as with
    | nil => intro last; exact ⟨rfl, by simp⟩
    | cons b as ih =>
      intro last
      rw [accessFlows_cons]
      obtain ⟨i1, i2⟩ := ih (max b.now last + duration byteDelay lat b)
      refine ⟨by simp [i1], ?_⟩
      intro i a t t' h1 h2 h3
      cases i with
      | zero =>
        simp only [List.getElem?_cons_succ, List.getElem?_cons_zero, Option.some.injEq] at h1 h2 h3
        cases as with
        | nil => simp at h1
        | cons d as =>
          rw [accessFlows_cons] at h3
          simp only [List.getElem?_cons_zero, Option.some.injEq] at h1 h3
          rw [← h3, ← h2, ← h1]
      | succ i =>
        simp only [List.getElem?_cons_succ] at h1 h2 h3
        exact i2 i a t t' h1 h2 h3
  refine ⟨(key as 0).1, ?_, (key as 0).2⟩
  intro a t h1 h2
  cases as with
  | nil => simp at h1
  | cons b as =>
    rw [accessFlows_cons] at h2
    simp only [List.getElem?_cons_zero, Option.some.injEq] at h1 h2
    rw [← h2, ← h1, Nat.max_eq_left (Nat.zero_le _)]

/-- The memory that models nothing never ends an access: its callback is dropped. -/
theorem C114_null_refuted (a : Access) (as : List Access) : (nullFlows (a :: as)).length ≠ (a :: as).length := by
  simp [nullFlows]

/-- Three accesses with latency 5 and 2 per byte; the second waits, the third does not. -/
example : accessFlows ⟨2, 5, 0⟩ [⟨10, 4, 0⟩, ⟨11, 1, 1⟩, ⟨100, 0, 0⟩] = [23, 31, 105] := by decide

end SST.Mem.LogP
