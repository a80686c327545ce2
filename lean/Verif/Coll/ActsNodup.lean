import Verif.Coll.Rounds
import Mathlib.Data.List.Nodup
import Mathlib.Data.List.Perm.Lattice
/-!
The actions of a collective in rounds are listed without repetition.
-/
set_option autoImplicit false
namespace SST.Coll.Rounds
variable {V : Type}

theorem acts_nodup (R : Rounds V) : R.acts.Nodup := by
  unfold acts
  apply List.Nodup.filter
  have h3 : ∀ p i, ((List.range R.procs).flatMap fun q =>
      [(⟨p, i, .send, q⟩ : Act), ⟨p, i, .recv, q⟩, ⟨p, i, .loc, q⟩]).Nodup := by
    intro p i
    rw [List.nodup_flatMap]
    refine ⟨fun q _ => by simp, ?_⟩
    refine List.Pairwise.imp ?_ List.nodup_range
    intro q q' hne a ha ha'
    simp only [List.mem_cons, List.not_mem_nil, or_false] at ha ha'
    rcases ha with rfl | rfl | rfl <;> simp [hne] at ha'
  rw [List.nodup_flatMap]
  refine ⟨fun p _ => ?_, ?_⟩
  · rw [List.nodup_flatMap]
    refine ⟨fun i _ => h3 p i, ?_⟩
    refine List.Pairwise.imp ?_ List.nodup_range
    intro i i' hne a ha ha'
    simp only [List.mem_flatMap, List.mem_cons, List.not_mem_nil, or_false] at ha ha'
    obtain ⟨q, _, ha⟩ := ha
    obtain ⟨q', _, ha'⟩ := ha'
    rcases ha with rfl | rfl | rfl <;> simp [hne] at ha'
  · refine List.Pairwise.imp ?_ List.nodup_range
    intro p p' hne a ha ha'
    simp only [List.mem_flatMap, List.mem_cons, List.not_mem_nil, or_false] at ha ha'
    obtain ⟨i, _, q, _, ha⟩ := ha
    obtain ⟨i', _, q', _, ha'⟩ := ha'
    rcases ha with rfl | rfl | rfl <;> simp [hne] at ha'

end SST.Coll.Rounds
