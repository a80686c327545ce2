import Verif.Serial.CommLemmas
set_option autoImplicit false
/-
C16  concurrent senders never overlap in the inter-process send buffer
-/
namespace SST.Serial.Comm

/-- the capacity of the buffer a reservation was put in -/
def St.capacity (s : St) : Place → Option Nat
  | .pending => none
  | .main => some s.alloc
  | .backup k => (s.backups[k]?).map Backup.max

/-- **C16 (disjoint, inside).** Threads reserve ranges for messages of any sizes and their
steps interleave in any way.  At every moment the ranges handed out are pairwise disjoint,
and each range for which a buffer has been chosen lies inside that buffer. -/
theorem C16_disjoint_inside (backupSize : Nat) (hb : 0 < backupSize) (alloc : Nat) (mem : Nat → Byte)
    (ops : List Op) (hv : Valid ops) :
    let s := run backupSize (St.init alloc mem) ops
    (∀ (i j : Nat) (r r' : Res), i ≠ j → s.res[i]? = some r → s.res[j]? = some r' →
      r.start + r.data.length ≤ r'.start ∨ r'.start + r'.data.length ≤ r.start) ∧
    (∀ r ∈ s.res, r.place ≠ .pending → ∃ cap, s.capacity r.place = some cap ∧ r.start + r.data.length ≤ cap) := by
  intro s
  have h : Inv s := (Inv.init alloc mem).run hb ops hv
  refine ⟨?_, ?_⟩
  · intro i j r r' hij hi hj
    rcases Nat.lt_or_gt_of_ne hij with g | g
    · exact .inl (h.contig.ordered hi hj g)
    · exact .inr (h.contig.ordered hj hi g)
  · intro r hr hp
    obtain ⟨i, hi⟩ := List.mem_iff_getElem?.1 hr
    cases hpl : r.place with
    | pending => exact absurd hpl hp
    | main => exact ⟨s.alloc, rfl, h.main i r hi hpl⟩
    | backup k =>
      obtain ⟨_, ⟨b, hk, hm, _⟩, _⟩ := h.back i r k hi hpl
      exact ⟨b.max, by simp [St.capacity, hk], hm⟩

/-- **C16 (merge).** When every sender has finished writing, the memory handed to the
network is large enough for all the bytes reserved, and those bytes are exactly the
messages one after the other in the order in which their reservations took effect,
however many backup buffers were needed in between. -/
theorem C16_merged (backupSize : Nat) (hb : 0 < backupSize) (alloc : Nat) (mem : Nat → Byte)
    (ops : List Op) (hv : Valid ops) :
    let s := run backupSize (St.init alloc mem) ops
    (∀ r ∈ s.res, r.written = true) →
    s.bytes ≤ (sendView s).2 ∧
    (List.range s.bytes).map (sendView s).1 = (s.res.map Res.data).flatten := by
  intro s hw
  have h : Inv s := (Inv.init alloc mem).run hb ops hv
  refine ⟨?_, ?_⟩
  · have hlast : ∀ (rs : List Res) (p e : Nat), Contig p rs e → e = p ∨ ∃ (i : Nat) (r : Res), rs[i]? = some r ∧ r.stop = e := by
      intro rs
      induction rs with
      | nil => intro p e hc; exact .inl hc.symm
      | cons a rs ih =>
        intro p e hc
        rcases ih _ _ hc.2.2 with h1 | ⟨i, r, h1, h2⟩
        · exact .inr ⟨0, a, rfl, by rw [h1, ← hc.1]; rfl⟩
        · exact .inr ⟨i + 1, r, by simpa using h1, h2⟩
    rcases hlast _ _ _ h.contig with h1 | ⟨i, r, h1, h2⟩
    · omega
    · have := (merged h hw h1).2; omega
  · have := h.contig.content (m := (sendView s).1) (fun i r hi => (merged h hw hi).1)
    simpa using this

/-- the messages of a schedule in the order of their reservations -/
def messages (ops : List Op) : List (List Byte) :=
  ops.filterMap fun | .reserve d => some d | _ => none

/-- the reservations of a schedule are its messages in order -/
theorem C16_order (backupSize : Nat) (ops : List Op) (s : St) :
    (run backupSize s ops).res.map Res.data = s.res.map Res.data ++ messages ops := by
  induction ops generalizing s with
  | nil => simp [run, messages]
  | cons op ops ih =>
    show (run backupSize (step backupSize s op) ops).res.map Res.data = _
    rw [ih]
    have hset : ∀ (l : List Res) (i : Nat) (r r' : Res), l[i]? = some r → r'.data = r.data →
        (l.set i r').map Res.data = l.map Res.data := by
      intro l
      induction l with
      | nil => intro i r r' h; simp at h
      | cons a l ih =>
        intro i r r' h1 h2
        cases i with
        | zero => simp at h1; subst h1; simp [h2]
        | succ i => simp [ih i r r' (by simpa using h1) h2]
    cases op with
    | reserve d => simp [step, messages]
    | choose i =>
      have : (step backupSize s (.choose i)).res.map Res.data = s.res.map Res.data := by
        simp only [step]
        cases hr : s.res[i]? with
        | none => rfl
        | some r =>
          simp only
          split
          · exact hset _ _ r _ hr rfl
          · rfl
      rw [this]; simp [messages]
    | write i =>
      have : (step backupSize s (.write i)).res.map Res.data = s.res.map Res.data := by
        simp only [step]
        cases hr : s.res[i]? with
        | none => rfl
        | some r =>
          simp only
          cases r.place with
          | pending => rfl
          | main => exact hset _ _ r _ hr rfl
          | backup k => exact hset _ _ r _ hr rfl
      rw [this]; simp [messages]

/-- **C16 (reset).** After the buffer is reset nothing is reserved, no backup is left, and
the main buffer has not become smaller. -/
theorem C16_reset (s : St) (h : 0 < s.alloc) :
    (reset s).bytes = 0 ∧ (reset s).filled = 0 ∧ (reset s).backups = [] ∧ s.alloc ≤ (reset s).alloc ∧
    (s.backups ≠ [] → 2 * s.alloc ≤ (reset s).alloc) := by
  unfold reset
  split
  · rename_i he
    have he : s.backups = [] := by simpa using he
    exact ⟨rfl, rfl, he, Nat.le_refl _, fun hn => absurd he hn⟩
  · have h2 : 2 ≤ Nat.min (Nat.max 2 (s.bytes / s.alloc)) 8 :=
      Nat.le_min.2 ⟨Nat.le_max_left .., by decide⟩
    have h3 : s.alloc * 2 ≤ s.alloc * Nat.min (Nat.max 2 (s.bytes / s.alloc)) 8 := Nat.mul_le_mul_left _ h2
    refine ⟨rfl, rfl, rfl, ?_, fun _ => ?_⟩
    · show s.alloc ≤ s.alloc * _
      omega
    · show 2 * s.alloc ≤ s.alloc * _
      omega

/-- three messages in a main buffer of 4 bytes with backups of 8 bytes: the third overtakes
the second in choosing its buffer, so both end up in one backup -/
def demoOps : List Op :=
  [.reserve [1, 2, 3], .choose 0, .reserve [4, 5, 6, 7], .reserve [8, 9, 10, 11, 12],
   .choose 2, .write 2, .write 0, .choose 1, .write 1]

example : Valid demoOps := by
  intro op hop d hd
  simp only [demoOps, List.mem_cons, List.not_mem_nil, or_false] at hop
  rcases hop with rfl | rfl | rfl | rfl | rfl | rfl | rfl | rfl | rfl <;> cases hd <;> decide

example : let s := run 8 (St.init 4 (fun _ => 0)) demoOps
    (∀ r ∈ s.res, r.written = true) ∧ s.res.map Res.place = [.main, .backup 0, .backup 0] ∧
    (List.range s.bytes).map (sendView s).1 = [1, 2, 3, 4, 5, 6, 7, 8, 9, 10, 11, 12] := by decide

/-- with the second message chosen first, two backups are in use -/
def demoOps2 : List Op :=
  [.reserve [1, 2, 3], .choose 0, .reserve [4, 5, 6, 7], .reserve [8, 9, 10, 11, 12],
   .choose 1, .choose 2, .write 2, .write 0, .write 1]

example : let s := run 8 (St.init 4 (fun _ => 0)) demoOps2
    (∀ r ∈ s.res, r.written = true) ∧ s.res.map Res.place = [.main, .backup 0, .backup 1] ∧
    (List.range s.bytes).map (sendView s).1 = [1, 2, 3, 4, 5, 6, 7, 8, 9, 10, 11, 12] := by decide

end SST.Serial.Comm
