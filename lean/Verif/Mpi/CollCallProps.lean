import Verif.Mpi.CollCall
import Verif.Mpi.TypesProps

/-!
Property C116: the MPI collective calls move exactly the data their arguments describe.

`At t cnt` is the list of byte offsets of `cnt` elements of a type in a user buffer, each with its
place in the packed data (`xfer`, property C28).
-/
set_option autoImplicit false
namespace SST.Mpi.CollCall
open SST.Mpi.Types

/-- `m'` is `m` with the data put at the offsets of the list relative to `a`, and nothing else
changed. -/
def Written (l : List (Nat × Int)) (a : Int) (data : Nat → Nat) (m m' : Buf) : Prop :=
  ∀ i : Int, (∃ x ∈ l, a + x.2 = i ∧ m' i = data x.1) ∨ ((∀ x ∈ l, a + x.2 ≠ i) ∧ m' i = m i)

theorem unpackRun_mem (l : List (Nat × Int)) (packed user : Buf) (u : Int) (hu : ∃ x ∈ l, x.2 = u) :
    ∃ x ∈ l, x.2 = u ∧ unpackRun l packed user u = packed x.1 := by
  unfold unpackRun
  induction l generalizing user with
  | nil => obtain ⟨x, hx, _⟩ := hu; simp at hx
  | cons a l ih =>
    simp only [List.foldl_cons]
    by_cases h : ∃ x ∈ l, x.2 = u
    · obtain ⟨x, h1, h2, h3⟩ := ih (user.put a.2 (packed a.1)) h
      exact ⟨x, List.mem_cons_of_mem _ h1, h2, h3⟩
    · have hne : ∀ x ∈ l, x.2 ≠ u := fun x hx e => h ⟨x, hx, e⟩
      have := unpackRun_other l packed (user.put a.2 (packed a.1)) u hne
      unfold unpackRun at this
      rw [this]
      obtain ⟨x, hx, e⟩ := hu
      simp only [List.mem_cons] at hx
      rcases hx with rfl | hx
      · exact ⟨x, List.mem_cons_self, e, by rw [← e]; simp [Buf.put]⟩
      · exact absurd e (hne x hx)

theorem mem_shift {p : Nat} {u : Int} {l : List (Nat × Int)} {y : Nat × Int} :
    y ∈ shift p u l ↔ ∃ x ∈ l, y = (p + x.1, u + x.2) := by
  simp only [shift, List.mem_map]
  constructor
  · rintro ⟨x, hx, rfl⟩; exact ⟨x, hx, rfl⟩
  · rintro ⟨x, hx, rfl⟩; exact ⟨x, hx, rfl⟩

theorem xfer_contig {t : Ty} {cnt : Nat} (h : t.contig = true) : xfer t cnt = block (cnt * t.size) := by
  unfold xfer; rw [if_pos h]

theorem xfer_packed {t : Ty} {cnt : Nat} (h : t.contig = false) : xfer t cnt = repeatCopies cnt t.size t.extent t.copies := by
  unfold xfer; rw [if_neg (by simp [h])]

theorem mem_block {n : Nat} {x : Nat × Int} : x ∈ block n ↔ x.1 < n ∧ x.2 = (x.1 : Int) := by
  simp only [block, List.mem_map, List.mem_range]
  constructor
  · rintro ⟨i, hi, rfl⟩; exact ⟨hi, rfl⟩
  · rintro ⟨h1, h2⟩
    exact ⟨x.1, h1, by rw [← h2]⟩

/-- The source the engine sees, when the buffer is an address. -/
theorem source_spec (mem junk : Buf) (a : Int) (rb recvbuf : Ptr) (scnt rcnt : Nat) (t rt : Ty) (h : t.Pos) :
    ∀ x ∈ xfer t scnt, (buffers mem junk (.addr a) rb recvbuf scnt rcnt t rt).source mem x.1 = mem (a + x.2) := by
  intro x hx
  cases hc : t.contig with
  | true =>
    rw [xfer_contig hc] at hx
    obtain ⟨h1, h2⟩ := mem_block.1 hx
    simp only [Op.source, buffers, hc, if_true, Ptr.raw]
    rw [h2]
  | false =>
    have hf := fits_xfer t h scnt
    rw [xfer_packed hc] at hx hf
    simp only [Op.source, buffers, hc, Bool.false_eq_true, if_false, packAt]
    have hp : (shift 0 a (repeatCopies scnt t.size t.extent t.copies)).Pairwise (fun a b => a.1 ≠ b.1) := by
      rw [shift, List.pairwise_map]
      refine hf.2.imp ?_
      intro x y h
      simp only
      omega
    have := packRun_spec _ mem junk hp (0 + x.1, a + x.2) (mem_shift.2 ⟨x, hx, rfl⟩)
    simp only [Nat.zero_add] at this
    exact this

/-- What the finish leaves in memory, when the receive buffer is an address and the engine wrote
all bytes of `rcnt` elements. -/
theorem finish_spec (mem junk : Buf) (sb : Ptr) (a : Int) (scnt rcnt : Nat) (st t : Ty) (h : t.Pos) (data : Nat → Nat) :
    ∃ m', (buffers mem junk sb (.addr a) (.addr a) scnt rcnt st t).finish (rcnt * t.size) data mem junk = .ok m' ∧
      Written (xfer t rcnt) a data mem m' := by
  cases hc : t.contig with
  | true =>
    refine ⟨fun i => if a ≤ i ∧ i < a + (rcnt * t.size : Nat) then data (i - a).toNat else mem i, ?_, ?_⟩
    · simp [Op.finish, buffers, hc, Ptr.raw]
    · intro i
      rw [xfer_contig hc]
      by_cases hi : a ≤ i ∧ i < a + (rcnt * t.size : Nat)
      · left
        refine ⟨((i - a).toNat, ((i - a).toNat : Int)), mem_block.2 ⟨by omega, rfl⟩, ?_, ?_⟩
        · simp only; omega
        · simp only; rw [if_pos hi]
      · right
        refine ⟨?_, ?_⟩
        · intro x hx
          obtain ⟨h1, h2⟩ := mem_block.1 hx
          omega
        · simp only; rw [if_neg hi]
  | false =>
    have hf := fits_xfer t h rcnt
    refine ⟨unpackAt (fun i => if 0 ≤ i ∧ i < (rcnt * t.size : Nat) then data i.toNat else junk i) mem a t rcnt, ?_, ?_⟩
    · simp [Op.finish, buffers, hc]
    · rw [xfer_packed hc] at hf ⊢
      intro i
      by_cases hi : ∃ x ∈ shift 0 a (repeatCopies rcnt t.size t.extent t.copies), x.2 = i
      · left
        obtain ⟨y, h1, h2, h3⟩ := unpackRun_mem _ (fun i => if 0 ≤ i ∧ i < (rcnt * t.size : Nat) then data i.toNat else junk i) mem i hi
        obtain ⟨x, h4, h5⟩ := mem_shift.1 h1
        refine ⟨x, h4, ?_, ?_⟩
        · rw [h5] at h2; exact h2
        · have := hf.1 x h4
          rw [unpackAt, h3, h5]
          simp only [Nat.zero_add]
          rw [if_pos ⟨by omega, by omega⟩, Int.toNat_natCast]
      · right
        refine ⟨?_, ?_⟩
        · intro x hx e
          exact hi ⟨_, mem_shift.2 ⟨x, hx, rfl⟩, e⟩
        · exact unpackRun_other _ _ _ i (fun x hx e => hi ⟨x, hx, e⟩)

/-- The temporary send buffer has all that is packed. -/
theorem has_send (mem junk : Buf) (a : Int) (rb recvbuf : Ptr) (scnt rcnt : Nat) (t rt : Ty) :
    (buffers mem junk (.addr a) rb recvbuf scnt rcnt t rt).tmpSend.has (scnt * t.size) = true := by
  simp only [buffers]
  split <;> simp [EBuf.has, Ptr.raw]

theorem has_recv (mem junk : Buf) (sb rb : Ptr) (a : Int) (scnt rcnt : Nat) (st t : Ty) :
    (buffers mem junk sb rb (.addr a) scnt rcnt st t).tmpRecv.has (rcnt * t.size) = true := by
  simp only [buffers]
  split <;> simp [EBuf.has, Ptr.raw]

theorem has_zero (b : EBuf) : b.has 0 = true := by cases b <;> simp [EBuf.has]

theorem send_addr (mem junk : Buf) (a : Int) (rb recvbuf : Ptr) (scnt rcnt : Nat) (t rt : Ty) :
    (buffers mem junk (.addr a) rb recvbuf scnt rcnt t rt).tmpSend ≠ .bad ∧
      (buffers mem junk (.addr a) rb recvbuf scnt rcnt t rt).tmpSend ≠ .null := by
  simp only [buffers]
  split <;> simp [Ptr.raw]

/-- The last part of `run`, when nothing goes wrong. -/
theorem run_of {c : Coll} {n root : Nat} {red : (Nat → Nat → Nat) → Nat → Nat → Nat} {junk : Buf} {args : Nat → Args} {mem : Nat → Buf}
    {rank : Nat} {o : Op} (h : start c root rank (mem rank) junk (args rank) = some o)
    (h1 : o.tmpSend ≠ .bad ∧ o.tmpSend ≠ .null ∨ reads c n root rank o.bytes = 0)
    (h2 : o.tmpSend.has (reads c n root rank o.bytes) = true) (h3 : o.tmpRecv.has (writes c n root rank o.bytes) = true) :
    run c n root red junk args mem rank = o.finish (writes c n root rank o.bytes)
        (deliver c root rank o.bytes red (fun p j =>
          match start c root p (mem p) junk (args p) with
          | some op => op.source (mem p) j
          | none => 0)) (mem rank) junk := by
  unfold run
  rw [h]
  simp only
  rw [if_neg, if_neg, if_neg, if_neg]
  · rfl
  · rintro ⟨e1, e2⟩
    rcases h1 with h1 | h1
    · exact h1.2 e1
    · omega
  · rw [h3]; simp
  · rw [h2]; simp
  · rintro ⟨e1, e2⟩
    rcases h1 with h1 | h1
    · exact h1.1 e1
    · omega

/-! ### Broadcast -/

/-- `MPI_Bcast` with any derived type: every byte of the type arrives at the same offset, nothing
else changes, and the memory of the root does not change. -/
theorem C116_bcast (n root cnt : Nat) (t : Ty) (ht : t.Pos) (buf : Nat → Int) (red : (Nat → Nat → Nat) → Nat → Nat → Nat) (junk : Buf)
    (mem : Nat → Buf) (rank : Nat) :
    ∃ m', run .bcast n root red junk (fun p => ⟨.addr (buf p), .null, cnt, cnt, some t, none⟩) mem rank = .ok m' ∧
      (rank = root → m' = mem root) ∧
      (rank ≠ root → ∀ i : Int,
        (∃ u, (∃ x ∈ xfer t cnt, x.2 = u) ∧ i = buf rank + u ∧ m' i = mem root (buf root + u)) ∨
        ((¬ ∃ x ∈ xfer t cnt, buf rank + x.2 = i) ∧ m' i = mem rank i)) := by
  have hroot : start .bcast root root (mem root) junk ⟨.addr (buf root), .null, cnt, cnt, some t, none⟩ =
      some (buffers (mem root) junk (.addr (buf root)) .null .null cnt cnt t t) := by
    simp [start, prepare, inPlace]
  by_cases hr : rank = root
  · subst hr
    refine ⟨mem rank, ?_, fun _ => rfl, fun h => absurd rfl h⟩
    rw [run_of hroot (Or.inl (send_addr ..))]
    · simp [Op.finish, buffers, Ptr.raw]
    · simp only [reads, if_true]; exact has_send ..
    · simp only [writes, if_true]; exact has_zero _
  · have hst : start .bcast root rank (mem rank) junk ⟨.addr (buf rank), .null, cnt, cnt, some t, none⟩ =
        some (buffers (mem rank) junk .null (.addr (buf rank)) (.addr (buf rank)) cnt cnt t t) := by
      simp [start, prepare, inPlace, hr]
    rw [run_of hst (Or.inr (by simp [reads, hr]))]
    · simp only [writes, hr, if_false]
      obtain ⟨m', h1, h2⟩ := finish_spec (mem rank) junk .null (buf rank) cnt cnt t t ht
        (deliver .bcast root rank (cnt * t.size) red (fun p j =>
          match start .bcast root p (mem p) junk ⟨.addr (buf p), .null, cnt, cnt, some t, none⟩ with
          | some op => op.source (mem p) j
          | none => 0))
      refine ⟨m', h1, fun h => h.elim, ?_⟩
      intro _ i
      rcases h2 i with ⟨x, e1, e2, e3⟩ | ⟨e1, e2⟩
      · left
        refine ⟨x.2, ⟨x, e1, rfl⟩, e2.symm, ?_⟩
        rw [e3]
        simp only [deliver]
        rw [hroot]
        exact source_spec (mem root) junk (buf root) .null .null cnt cnt t t ht x e1
      · exact Or.inr ⟨fun ⟨x, hx, e⟩ => e1 x hx e, e2⟩
    · simp only [reads, hr, if_false]; exact has_zero _
    · simp only [writes, hr, if_false]; exact has_recv ..

/-- A strided type: bytes 0-3 and 12-15. -/
example : (xfer (vector 2 1 3 (.prim 4)) 1).map (·.2) = [0, 1, 2, 3, 12, 13, 14, 15] ∧ (vector 2 1 3 (.prim 4)).Pos :=
  ⟨by decide, by simp [vector, Ty.Pos]⟩

/-! ### Reductions -/

/-- The arguments of a reduction: separate buffers or in place. -/
def redArgs (src : Option Int) (dst : Int) (cnt : Nat) (t : Ty) : Args :=
  ⟨match src with | some a => .addr a | none => .inPlace, .addr dst, cnt, cnt, some t, some t⟩

/-- `MPI_Reduce` (at the root), `MPI_Allreduce` and `MPI_Scan` with any derived type, with separate
buffers or in place: the reduction is applied to the elements of all ranks, and its result is put
at the offsets of the type, nowhere else. -/
theorem C116_reductions (c : Coll) (hc : c = .reduce ∨ c = .allreduce ∨ c = .scan) (n root cnt : Nat) (t : Ty) (ht : t.Pos)
    (src : Nat → Option Int) (dst : Nat → Int) (hsrc : c = .reduce → ∀ p, p ≠ root → (src p).isSome)
    (red : (Nat → Nat → Nat) → Nat → Nat → Nat) (junk : Buf) (mem : Nat → Buf) (rank : Nat) :
    ∃ data : Nat → Nat → Nat,
      (∀ p, ∀ x ∈ xfer t cnt, data p x.1 = mem p ((src p).getD (dst p) + x.2)) ∧
      ∃ m', run c n root red junk (fun p => redArgs (src p) (dst p) cnt t) mem rank = .ok m' ∧
        (c = .reduce ∧ rank ≠ root → m' = mem rank) ∧
        (c = .reduce ∧ rank ≠ root ∨ Written (xfer t cnt) (dst rank) (red data rank) (mem rank) m') := by
  -- the operation at a rank that gets a result
  have hst : ∀ p, (c = .reduce → p = root) → start c root p (mem p) junk (redArgs (src p) (dst p) cnt t) =
      some (buffers (mem p) junk (.addr ((src p).getD (dst p))) (.addr (dst p)) (.addr (dst p)) cnt cnt t t) := by
    intro p hp
    rcases hc with rfl | rfl | rfl
    · have hp := hp rfl
      subst hp
      cases hs : src p <;> simp [start, prepare, inPlace, redArgs]
    · cases hs : src p <;> simp [start, prepare, inPlace, redArgs]
    · cases hs : src p <;> simp [start, prepare, inPlace, redArgs]
  -- at a rank that only sends
  have hst2 : ∀ p, c = .reduce → p ≠ root → start c root p (mem p) junk (redArgs (src p) (dst p) cnt t) =
      some (buffers (mem p) junk (.addr ((src p).getD (dst p))) .null .null cnt cnt t t) := by
    intro p h1 h2
    have h3 := hsrc h1 p h2
    subst h1
    cases hs : src p with
    | none => rw [hs] at h3; exact absurd h3 (by simp)
    | some a => simp [start, prepare, inPlace, redArgs, h2]
  refine ⟨fun p j => match start c root p (mem p) junk (redArgs (src p) (dst p) cnt t) with
          | some op => op.source (mem p) j
          | none => 0, ?_, ?_⟩
  · intro p x hx
    by_cases hp : c = .reduce ∧ p ≠ root
    · simp only
      rw [hst2 p hp.1 hp.2]
      exact source_spec _ _ _ _ _ _ _ _ _ ht x hx
    · simp only
      rw [hst p (fun h => Decidable.byContradiction (fun h' => hp ⟨h, h'⟩))]
      exact source_spec _ _ _ _ _ _ _ _ _ ht x hx
  · by_cases hp : c = .reduce ∧ rank ≠ root
    · refine ⟨mem rank, ?_, fun _ => rfl, Or.inl hp⟩
      rw [run_of (hst2 rank hp.1 hp.2) (Or.inl (send_addr ..))]
      · simp [Op.finish, buffers, Ptr.raw]
      · rw [hp.1]; simp only [reads]; exact has_send ..
      · rw [hp.1]; simp only [writes, hp.2, if_false]; exact has_zero _
    · have hr : c = .reduce → rank = root := fun h => Decidable.byContradiction (fun h' => hp ⟨h, h'⟩)
      have hw : writes c n root rank (cnt * t.size) = cnt * t.size := by
        rcases hc with rfl | rfl | rfl
        · simp [writes, hr rfl]
        · rfl
        · rfl
      have hrd : reads c n root rank (cnt * t.size) = cnt * t.size := by
        rcases hc with rfl | rfl | rfl <;> rfl
      rw [run_of (hst rank hr) (Or.inl (send_addr ..))]
      · simp only [Op.bytes]
        have hb : ∀ a b, (buffers (mem rank) junk a b (.addr (dst rank)) cnt cnt t t).sendcnt * (buffers (mem rank) junk a b (.addr (dst rank)) cnt cnt t t).sendtype.size = cnt * t.size := fun _ _ => rfl
        rw [hb, hw]
        obtain ⟨m', h1, h2⟩ := finish_spec (mem rank) junk (.addr ((src rank).getD (dst rank))) (dst rank) cnt cnt t t ht
          (deliver c root rank (cnt * t.size) red (fun p j =>
            match start c root p (mem p) junk (redArgs (src p) (dst p) cnt t) with
            | some op => op.source (mem p) j
            | none => 0))
        refine ⟨m', h1, fun h => absurd h hp, Or.inr ?_⟩
        have hd : deliver c root rank (cnt * t.size) red (fun p j =>
            match start c root p (mem p) junk (redArgs (src p) (dst p) cnt t) with
            | some op => op.source (mem p) j
            | none => 0) = red (fun p j =>
            match start c root p (mem p) junk (redArgs (src p) (dst p) cnt t) with
            | some op => op.source (mem p) j
            | none => 0) rank := by
          funext j
          rcases hc with rfl | rfl | rfl <;> rfl
        rw [hd] at h2
        exact h2
      · show EBuf.has (reads c n root rank (cnt * t.size)) _ = true
        rw [hrd]; exact has_send ..
      · show EBuf.has (writes c n root rank (cnt * t.size)) _ = true
        rw [hw]; exact has_recv ..

/-- Three ranks, the second in place, a strided type. -/
example : ∃ src : Nat → Option Int, src 1 = none ∧ (Coll.allreduce = .reduce → ∀ p, p ≠ 0 → (src p).isSome) ∧
    (vector 2 1 3 (.prim 4)).Pos :=
  ⟨fun p => if p = 1 then none else some 100, rfl, fun h => by simp at h, by simp [vector, Ty.Pos]⟩

/-- A user operation gets packed elements together with a type that says they are spread: the
elements it is told to combine are not in the buffers it is given. -/
theorem C116_user_op_refuted :
    ¬ ∀ (t : Ty) (cnt : Nat), t.Pos → ∀ x ∈ xfer t cnt, x.2 < (cnt * t.size : Nat) := by
  intro h
  have := h (vector 2 1 3 (.prim 4)) 1 (by simp [vector, Ty.Pos]) (7, 15) (by decide)
  revert this
  decide

/-! ### Gather, allgather, scatter, alltoall -/

/-- Contiguous types of the same number of bytes at all ranks. -/
structure Even (n e : Nat) (args : Nat → Args) : Prop where
  types : ∀ p, p < n → ∃ t t', (args p).st = some t ∧ (args p).rt = some t' ∧ t.contig = true ∧ t'.contig = true ∧
    (args p).scnt * t.size = e ∧ (args p).rcnt * t'.size = e

/-- Nothing at this rank but the destination bytes. -/
theorem finish_user (mem junk : Buf) (sb rb : Ptr) (a : Int) (scnt rcnt : Nat) (st t : Ty) (hc : t.contig = true) (len : Nat)
    (data : Nat → Nat) :
    (buffers mem junk sb rb (.addr a) scnt rcnt st t).finish len data mem junk =
      .ok (fun i => if a ≤ i ∧ i < a + len then data (i - a).toNat else mem i) := by
  simp [Op.finish, buffers, hc, Ptr.raw]

theorem source_user (mem junk : Buf) (a : Int) (rb recvbuf : Ptr) (scnt rcnt : Nat) (t rt : Ty) (hc : t.contig = true) (j : Nat) :
    (buffers mem junk (.addr a) rb recvbuf scnt rcnt t rt).source mem j = mem (a + j) := by
  simp [Op.source, buffers, hc, Ptr.raw]

theorem has_user (need : Nat) (mem junk : Buf) (a : Int) (rb recvbuf : Ptr) (scnt rcnt : Nat) (t rt : Ty) (hc : t.contig = true) :
    (buffers mem junk (.addr a) rb recvbuf scnt rcnt t rt).tmpSend.has need = true := by
  simp [buffers, hc, Ptr.raw, EBuf.has]

theorem has_user_recv (need : Nat) (mem junk : Buf) (a : Int) (sb rb : Ptr) (scnt rcnt : Nat) (t rt : Ty) (hc : rt.contig = true) :
    (buffers mem junk sb rb (.addr a) scnt rcnt t rt).tmpRecv.has need = true := by
  simp [buffers, hc, Ptr.raw, EBuf.has]

/-- The memory `m'` is `m` with `n` blocks of `e` bytes at `a`, block `p` with the bytes `b p`. -/
def Blocks (n e : Nat) (a : Int) (b : Nat → Nat → Nat) (m m' : Buf) : Prop :=
  (∀ p, p < n → ∀ j, j < e → m' (a + (p * e + j : Nat)) = b p j) ∧ (∀ i : Int, (i < a ∨ a + (n * e : Nat) ≤ i) → m' i = m i)

theorem blocks_of (n e : Nat) (a : Int) (data b : Nat → Nat → Nat) (f : Nat → Nat) (m : Buf) (hf : ∀ j, f j = data (j / e) (j % e))
    (hd : ∀ p, p < n → ∀ j, j < e → data p j = b p j) :
    Blocks n e a b m (fun i => if a ≤ i ∧ i < a + (n * e : Nat) then f (i - a).toNat else m i) := by
  constructor
  · intro p hp j hj
    have hlt : p * e + j < n * e := by
      have : (p + 1) * e ≤ n * e := Nat.mul_le_mul_right _ hp
      rw [Nat.succ_mul] at this
      omega
    simp only
    rw [if_pos ⟨by omega, by omega⟩]
    have h1 : (a + (p * e + j : Nat) - a).toNat = p * e + j := by omega
    rw [h1, hf]
    have h2 : (p * e + j) / e = p := by
      rw [Nat.add_comm, Nat.add_mul_div_right _ _ (by omega), Nat.div_eq_of_lt hj, Nat.zero_add]
    have h3 : (p * e + j) % e = j := by
      rw [Nat.add_comm, Nat.add_mul_mod_self_right, Nat.mod_eq_of_lt hj]
    rw [h2, h3, hd p hp j hj]
  · intro i hi
    simp only
    rw [if_neg (by omega)]

/-- Where a rank's contribution to a gather comes from: its send buffer, or its own block of the
receive buffer. -/
def contribution (e : Nat) (x : Args) (p : Nat) (mem : Buf) (j : Nat) : Nat :=
  match x.sendbuf, x.recvbuf with
  | .addr a, _ => mem (a + j)
  | .inPlace, .addr d => mem (d + (p * e : Nat) + j)
  | _, _ => 0

/-- What is passed on at a rank of a gather. -/
theorem gather_start (c : Coll) (hc : c = .gather ∨ c = .allgather) (e root p : Nat) (mem junk : Buf) (x : Args) (t t' : Ty)
    (h1 : x.st = some t) (h2 : x.rt = some t') (h3 : t.contig = true) (h4 : t'.contig = true) (h5 : x.scnt * t.size = e)
    (h6 : x.rcnt * t'.size = e) (hb : (∃ a, x.sendbuf = .addr a) ∨ x.sendbuf = .inPlace ∧ t'.extent = t'.size ∧ (c = .gather → p = root))
    (d : Int) (hd : x.recvbuf = .addr d) :
    ∃ o, start c root p mem junk x = some o ∧ o.bytes = e ∧ (∀ j, o.source mem j = contribution e x p mem j) ∧
      (o.tmpSend ≠ .bad ∧ o.tmpSend ≠ .null) ∧ (∀ k, o.tmpSend.has k = true) ∧ (∀ k, o.tmpRecv.has k = true) ∧
      ((c = .allgather ∨ p = root) → ∀ len data, o.finish len data mem junk =
        .ok (fun i => if d ≤ i ∧ i < d + len then data (i - d).toNat else mem i)) ∧
      (c = .gather → p ≠ root → ∀ len data, o.finish len data mem junk = .ok mem) := by
  obtain ⟨sb, rb, scnt, rcnt, st, rt⟩ := x
  simp only at h1 h2 h5 h6 hb hd
  subst h1 h2 hd
  have key : ∀ (a : Int) (k : Nat) (u : Ty), u.contig = true → k * u.size = e →
      (∀ j : Nat, mem (a + j) = contribution e ⟨sb, .addr d, scnt, rcnt, some t, some t'⟩ p mem j) →
      (start c root p mem junk ⟨sb, .addr d, scnt, rcnt, some t, some t'⟩ =
        some (if c = .allgather ∨ p = root then buffers mem junk (.addr a) (.addr d) (.addr d) k rcnt u t' else buffers mem junk (.addr a) .null .null k k u u)) →
      ∃ o, start c root p mem junk ⟨sb, .addr d, scnt, rcnt, some t, some t'⟩ = some o ∧ o.bytes = e ∧
      (∀ j, o.source mem j = contribution e ⟨sb, .addr d, scnt, rcnt, some t, some t'⟩ p mem j) ∧
      (o.tmpSend ≠ .bad ∧ o.tmpSend ≠ .null) ∧ (∀ k, o.tmpSend.has k = true) ∧ (∀ k, o.tmpRecv.has k = true) ∧
      ((c = .allgather ∨ p = root) → ∀ len data, o.finish len data mem junk =
        .ok (fun i => if d ≤ i ∧ i < d + len then data (i - d).toNat else mem i)) ∧
      (c = .gather → p ≠ root → ∀ len data, o.finish len data mem junk = .ok mem) := by
    intro a k u hu he hm hs
    by_cases hr : c = .allgather ∨ p = root
    · rw [if_pos hr] at hs
      refine ⟨_, hs, he, ?_, send_addr .., fun _ => has_user _ _ _ _ _ _ _ _ _ _ hu, fun _ => has_user_recv _ _ _ _ _ _ _ _ _ _ h4, ?_, ?_⟩
      · intro j; rw [source_user _ _ _ _ _ _ _ _ _ hu, hm j]
      · intro _ len data
        exact finish_user _ _ _ _ _ _ _ _ _ h4 _ _
      · intro h7 h8
        rcases hr with hr | hr
        · rw [h7] at hr; exact absurd hr (by simp)
        · exact absurd hr h8
    · rw [if_neg hr] at hs
      refine ⟨_, hs, he, ?_, send_addr .., fun _ => has_user _ _ _ _ _ _ _ _ _ _ hu, ?_, ?_, ?_⟩
      · intro j; rw [source_user _ _ _ _ _ _ _ _ _ hu, hm j]
      · intro k; simp [buffers, Ptr.raw, EBuf.has]
      · intro h7; exact absurd h7 hr
      · intro _ _ len data
        simp [Op.finish, buffers, Ptr.raw]
  rcases hb with ⟨a, rfl⟩ | ⟨rfl, hext, hg⟩
  · refine key a scnt t h3 h5 (fun j => rfl) ?_
    rcases hc with rfl | rfl
    · by_cases hr : p = root <;> simp [start, prepare, inPlace, hr]
    · simp [start, prepare, inPlace]
  · refine key (d + t'.extent * rcnt * p) rcnt t' h4 h6 ?_ ?_
    · intro j
      simp only [contribution]
      congr 1
      have : t'.extent * (rcnt : Int) * (p : Int) = (p * e : Nat) := by
        rw [hext, ← h6]
        push_cast
        rw [Int.mul_comm (t'.size : Int) rcnt, Int.mul_comm]
      rw [this]
    · rcases hc with rfl | rfl
      · have hr := hg rfl
        subst hr
        simp [start, prepare, inPlace]
      · simp [start, prepare, inPlace]

/-- `MPI_Gather` and `MPI_Allgather` of contiguous data: the root, or every rank, has the
contributions of all ranks in the order of the ranks, and nothing else has changed. -/
theorem C116_gather_partial (c : Coll) (hc : c = .gather ∨ c = .allgather) (n root e : Nat) (args : Nat → Args) (hev : Even n e args)
    (dst : Nat → Int) (hdst : ∀ p, p < n → (args p).recvbuf = .addr (dst p))
    (hsrc : ∀ p, p < n → (∃ a, (args p).sendbuf = .addr a) ∨
      (args p).sendbuf = .inPlace ∧ (∀ t, (args p).rt = some t → t.extent = t.size) ∧ (c = .gather → p = root))
    (red : (Nat → Nat → Nat) → Nat → Nat → Nat) (junk : Buf) (mem : Nat → Buf) (rank : Nat) (hrank : rank < n) :
    ∃ m', run c n root red junk args mem rank = .ok m' ∧
      (c = .allgather ∨ rank = root → Blocks n e (dst rank) (fun p j => contribution e (args p) p (mem p) j) (mem rank) m') ∧
      (c = .gather ∧ rank ≠ root → m' = mem rank) := by
  have hs : ∀ p, p < n → ∃ o, start c root p (mem p) junk (args p) = some o ∧ o.bytes = e ∧
      (∀ j, o.source (mem p) j = contribution e (args p) p (mem p) j) ∧
      (o.tmpSend ≠ .bad ∧ o.tmpSend ≠ .null) ∧ (∀ k, o.tmpSend.has k = true) ∧ (∀ k, o.tmpRecv.has k = true) ∧
      ((c = .allgather ∨ p = root) → ∀ len data, o.finish len data (mem p) junk =
        .ok (fun i => if dst p ≤ i ∧ i < dst p + len then data (i - dst p).toNat else mem p i)) ∧
      (c = .gather → p ≠ root → ∀ len data, o.finish len data (mem p) junk = .ok (mem p)) := by
    intro p hp
    obtain ⟨t, t', h1, h2, h3, h4, h5, h6⟩ := hev.types p hp
    refine gather_start c hc e root p (mem p) junk (args p) t t' h1 h2 h3 h4 h5 h6 ?_ (dst p) (hdst p hp)
    rcases hsrc p hp with h | ⟨g1, g2, g3⟩
    · exact Or.inl h
    · exact Or.inr ⟨g1, g2 t' h2, g3⟩
  obtain ⟨o, h1, h2, h3, h4, h5, h6, h7, h8⟩ := hs rank hrank
  rw [run_of h1 (Or.inl h4) (h5 _) (h6 _), h2]
  by_cases hr : c = .allgather ∨ rank = root
  · rw [h7 hr]
    refine ⟨_, rfl, ?_, ?_⟩
    · intro _
      have hw : writes c n root rank e = n * e := by
        rcases hc with rfl | rfl
        · rcases hr with hr | hr
          · exact absurd hr (by simp)
          · simp [writes, hr]
        · rfl
      rw [hw]
      refine blocks_of n e (dst rank) (fun p j =>
            match start c root p (mem p) junk (args p) with
            | some op => op.source (mem p) j
            | none => 0) _ _ (mem rank) ?_ ?_
      · intro j
        rcases hc with rfl | rfl <;> rfl
      · intro p hp j _
        obtain ⟨op, g1, -, g3, -⟩ := hs p hp
        rw [g1]
        exact g3 j
    · rintro ⟨h9, h10⟩
      rcases hr with hr | hr
      · rw [h9] at hr; exact absurd hr (by simp)
      · exact absurd hr h10
  · have hcg : c = .gather := by
      rcases hc with h | h
      · exact h
      · exact absurd (Or.inl h) hr
    rw [h8 hcg (fun h => hr (Or.inr h))]
    exact ⟨_, rfl, fun h => absurd h hr, fun _ => rfl⟩

/-- Two ranks, sending two 8-byte elements and receiving four 4-byte ones, the root 0 in place. -/
example : ∃ args : Nat → Args, Even 2 16 args ∧ (∀ p, p < 2 → (args p).recvbuf = .addr 100) ∧
    (∀ p, p < 2 → (∃ a, (args p).sendbuf = .addr a) ∨
      (args p).sendbuf = .inPlace ∧ (∀ t, (args p).rt = some t → t.extent = t.size) ∧ (Coll.gather = .gather → p = 0)) :=
  ⟨fun p => ⟨if p = 0 then .inPlace else .addr 0, .addr 100, 2, 4, some (.prim 8), some (.prim 4)⟩,
    ⟨fun p _ => ⟨.prim 8, .prim 4, rfl, rfl, rfl, rfl, rfl, rfl⟩⟩, fun _ _ => rfl, by
      intro p hp
      by_cases h : p = 0
      · right; subst h
        refine ⟨rfl, ?_, fun _ => rfl⟩
        intro t ht
        obtain rfl := Option.some.inj ht
        rfl
      · left; exact ⟨0, by simp [h]⟩⟩

/-- `MPI_Scatter` of contiguous data from separate buffers: every rank has its block of the root's
send buffer, and nothing else has changed. -/
theorem C116_scatter_partial (n root e : Nat) (hroot : root < n) (args : Nat → Args) (hev : Even n e args)
    (src dst : Nat → Int) (hsrc : ∀ p, p < n → (args p).sendbuf = .addr (src p)) (hdst : ∀ p, p < n → (args p).recvbuf = .addr (dst p))
    (red : (Nat → Nat → Nat) → Nat → Nat → Nat) (junk : Buf) (mem : Nat → Buf) (rank : Nat) (hrank : rank < n) :
    ∃ m', run .scatter n root red junk args mem rank = .ok m' ∧
      Blocks 1 e (dst rank) (fun _ j => mem root (src root + (rank * e + j : Nat))) (mem rank) m' := by
  have hs : ∀ p, p < n → ∃ o, start .scatter root p (mem p) junk (args p) = some o ∧ o.bytes = e ∧
      (p = root → ∀ j, o.source (mem p) j = mem p (src p + j)) ∧
      ((o.tmpSend ≠ .bad ∧ o.tmpSend ≠ .null) ∨ p ≠ root) ∧ (p = root → ∀ k, o.tmpSend.has k = true) ∧ (∀ k, o.tmpRecv.has k = true) ∧
      (∀ len data, o.finish len data (mem p) junk =
        .ok (fun i => if dst p ≤ i ∧ i < dst p + len then data (i - dst p).toNat else mem p i)) := by
    intro p hp
    obtain ⟨t, t', h1, h2, h3, h4, h5, h6⟩ := hev.types p hp
    have e1 := hsrc p hp
    have e2 := hdst p hp
    generalize args p = x at *
    obtain ⟨sb, rb, scnt, rcnt, st, rt⟩ := x
    simp only at h1 h2 h5 h6 e1 e2
    subst h1 h2 e1 e2
    by_cases hr : p = root
    · refine ⟨buffers (mem p) junk (.addr (src p)) (.addr (dst p)) (.addr (dst p)) scnt rcnt t t', by simp [start, prepare, inPlace, hr], h5,
        fun _ j => source_user _ _ _ _ _ _ _ _ _ h3 j, Or.inl (send_addr ..), fun _ _ => has_user _ _ _ _ _ _ _ _ _ _ h3,
        fun _ => has_user_recv _ _ _ _ _ _ _ _ _ _ h4, fun _ _ => finish_user _ _ _ _ _ _ _ _ _ h4 _ _⟩
    · refine ⟨buffers (mem p) junk .null (.addr (dst p)) (.addr (dst p)) rcnt rcnt t' t', by simp [start, prepare, inPlace, hr], h6,
        fun h => absurd h hr, Or.inr hr, fun h => absurd h hr,
        fun _ => has_user_recv _ _ _ _ _ _ _ _ _ _ h4, fun _ _ => finish_user _ _ _ _ _ _ _ _ _ h4 _ _⟩
  obtain ⟨o, h1, h2, -, h4, h5, h6, h7⟩ := hs rank hrank
  obtain ⟨oR, r1, -, r3, -⟩ := hs root hroot
  rw [run_of h1 ?_ ?_ (h6 _), h2, h7]
  · refine ⟨_, rfl, ?_⟩
    have hw : writes .scatter n root rank e = 1 * e := by simp [writes]
    rw [hw]
    refine blocks_of 1 e (dst rank) (fun q j => if q = 0 then deliver .scatter root rank e red (fun p j =>
            match start .scatter root p (mem p) junk (args p) with
            | some op => op.source (mem p) j
            | none => 0) j else deliver .scatter root rank e red (fun p j =>
            match start .scatter root p (mem p) junk (args p) with
            | some op => op.source (mem p) j
            | none => 0) (q * e + j)) _ _ (mem rank) ?_ ?_
    · intro j
      by_cases hq : j / e = 0
      · simp only [hq, if_true]
        by_cases he : e = 0
        · subst he; simp
        · have : j < e := by
            rcases Nat.lt_or_ge j e with h | h
            · exact h
            · have := Nat.div_pos h (by omega)
              omega
          rw [Nat.mod_eq_of_lt this]
      · simp only [hq, if_false]
        congr 1
        rw [Nat.mul_comm]
        exact (Nat.div_add_mod j e).symm
    · intro p hp j _
      have hp0 : p = 0 := by omega
      subst hp0
      simp only [if_true, deliver]
      rw [r1]
      exact r3 rfl _
  · rcases h4 with h | h
    · exact Or.inl h
    · exact Or.inr (by simp [reads, h])
  · by_cases hr : rank = root
    · exact h5 hr _
    · simp only [reads, hr, if_false]; exact has_zero _

/-- `MPI_Alltoall` of contiguous data between separate buffers: block `p` of the receive buffer is
this rank's block of the send buffer of rank `p`. -/
theorem C116_alltoall_partial (n e : Nat) (args : Nat → Args) (hev : Even n e args)
    (src dst : Nat → Int) (hsrc : ∀ p, p < n → (args p).sendbuf = .addr (src p)) (hdst : ∀ p, p < n → (args p).recvbuf = .addr (dst p))
    (red : (Nat → Nat → Nat) → Nat → Nat → Nat) (junk : Buf) (mem : Nat → Buf) (rank : Nat) (hrank : rank < n) :
    ∃ m', run .alltoall n 0 red junk args mem rank = .ok m' ∧
      Blocks n e (dst rank) (fun p j => mem p (src p + (rank * e + j : Nat))) (mem rank) m' := by
  have hs : ∀ p, p < n → ∃ o, start .alltoall 0 p (mem p) junk (args p) = some o ∧ o.bytes = e ∧
      (∀ j, o.source (mem p) j = mem p (src p + j)) ∧
      (o.tmpSend ≠ .bad ∧ o.tmpSend ≠ .null) ∧ (∀ k, o.tmpSend.has k = true) ∧ (∀ k, o.tmpRecv.has k = true) ∧
      (∀ len data, o.finish len data (mem p) junk =
        .ok (fun i => if dst p ≤ i ∧ i < dst p + len then data (i - dst p).toNat else mem p i)) := by
    intro p hp
    obtain ⟨t, t', h1, h2, h3, h4, h5, h6⟩ := hev.types p hp
    have e1 := hsrc p hp
    have e2 := hdst p hp
    generalize args p = x at *
    obtain ⟨sb, rb, scnt, rcnt, st, rt⟩ := x
    simp only at h1 h2 h5 h6 e1 e2
    subst h1 h2 e1 e2
    exact ⟨buffers (mem p) junk (.addr (src p)) (.addr (dst p)) (.addr (dst p)) scnt rcnt t t', by simp [start, prepare, inPlace], h5,
        fun j => source_user _ _ _ _ _ _ _ _ _ h3 j, send_addr .., fun _ => has_user _ _ _ _ _ _ _ _ _ _ h3,
        fun _ => has_user_recv _ _ _ _ _ _ _ _ _ _ h4, fun _ _ => finish_user _ _ _ _ _ _ _ _ _ h4 _ _⟩
  obtain ⟨o, h1, h2, -, h4, h5, h6, h7⟩ := hs rank hrank
  rw [run_of h1 (Or.inl h4) (h5 _) (h6 _), h2, h7]
  refine ⟨_, rfl, ?_⟩
  have hw : writes .alltoall n 0 rank e = n * e := rfl
  rw [hw]
  refine blocks_of n e (dst rank) (fun p j =>
            match start .alltoall 0 p (mem p) junk (args p) with
            | some op => op.source (mem p) (rank * e + j)
            | none => 0) _ _ (mem rank) ?_ ?_
  · intro j; rfl
  · intro p hp j _
    obtain ⟨op, g1, -, g3, -⟩ := hs p hp
    rw [g1]
    exact g3 _

example : ∃ args : Nat → Args, Even 3 16 args ∧ (∀ p, p < 3 → (args p).sendbuf = .addr 0) ∧ (∀ p, p < 3 → (args p).recvbuf = .addr 100) :=
  ⟨fun _ => ⟨.addr 0, .addr 100, 2, 4, some (.prim 8), some (.prim 4)⟩,
    ⟨fun p _ => ⟨.prim 8, .prim 4, rfl, rfl, rfl, rfl, rfl, rfl⟩⟩, fun _ _ => rfl, fun _ _ => rfl⟩

/-! ### What does not hold -/

theorem lt_mul_two (n e : Nat) (hn : 2 ≤ n) (he : 0 < e) : e < n * e := by
  have : 2 * e ≤ n * e := Nat.mul_le_mul_right _ hn
  omega

/-- Every gather, allgather and all-to-all into a type that is not contiguous writes outside the
temporary buffer, which has the size of one block. -/
theorem C116_noncontiguous_refuted (c : Coll) (hc : c = .gather ∨ c = .allgather ∨ c = .alltoall) (n root cnt : Nat) (hn : 2 ≤ n) (t : Ty)
    (ht : t.contig = false) (he : 0 < cnt * t.size) (src dst : Nat → Int) (red : (Nat → Nat → Nat) → Nat → Nat → Nat) (junk : Buf)
    (mem : Nat → Buf) :
    run c n root red junk (fun p => ⟨.addr (src p), .addr (dst p), cnt, cnt, some t, some t⟩) mem root = .overrun := by
  have hst : start c root root (mem root) junk ⟨.addr (src root), .addr (dst root), cnt, cnt, some t, some t⟩ =
      some (buffers (mem root) junk (.addr (src root)) (.addr (dst root)) (.addr (dst root)) cnt cnt t t) := by
    rcases hc with rfl | rfl | rfl <;> simp [start, prepare, inPlace]
  have hlt := lt_mul_two n (cnt * t.size) hn he
  unfold run
  rw [hst]
  simp only
  rw [if_neg (fun h => (send_addr ..).1 h.1)]
  by_cases h : (buffers (mem root) junk (.addr (src root)) (.addr (dst root)) (.addr (dst root)) cnt cnt t t).tmpSend.has
      (reads c n root root (buffers (mem root) junk (.addr (src root)) (.addr (dst root)) (.addr (dst root)) cnt cnt t t).bytes) = false
  · rw [if_pos h]
  · rw [if_neg h, if_pos]
    have hw : writes c n root root (cnt * t.size) = n * (cnt * t.size) := by
      rcases hc with rfl | rfl | rfl <;> simp [writes]
    show EBuf.has (writes c n root root (cnt * t.size)) _ = false
    rw [hw]
    simp [buffers, ht, EBuf.has]
    omega

/-- Every scatter from a type that is not contiguous reads outside the temporary buffer. -/
theorem C116_scatter_noncontiguous_refuted (n root cnt : Nat) (hn : 2 ≤ n) (t : Ty) (ht : t.contig = false) (he : 0 < cnt * t.size)
    (src dst : Nat → Int) (red : (Nat → Nat → Nat) → Nat → Nat → Nat) (junk : Buf) (mem : Nat → Buf) :
    run .scatter n root red junk (fun p => ⟨.addr (src p), .addr (dst p), cnt, cnt, some t, some t⟩) mem root = .overrun := by
  have hst : start .scatter root root (mem root) junk ⟨.addr (src root), .addr (dst root), cnt, cnt, some t, some t⟩ =
      some (buffers (mem root) junk (.addr (src root)) (.addr (dst root)) (.addr (dst root)) cnt cnt t t) := by
    simp [start, prepare, inPlace]
  have hlt := lt_mul_two n (cnt * t.size) hn he
  unfold run
  rw [hst]
  simp only
  rw [if_neg (fun h => (send_addr ..).1 h.1), if_pos]
  show EBuf.has (reads .scatter n root root (cnt * t.size)) _ = false
  simp [reads, buffers, ht, EBuf.has]
  omega

example : (vector 2 1 3 (.prim 4)).contig = false ∧ 0 < 1 * (vector 2 1 3 (.prim 4)).size := by decide

/-- `MPI_Scatter` with `MPI_IN_PLACE` as the receive buffer of the root writes to the address -1. -/
theorem C116_scatter_in_place_refuted (n root cnt : Nat) (t : Ty) (ht : t.contig = true) (he : 0 < cnt * t.size)
    (src : Int) (args : Nat → Args) (hargs : args root = ⟨.addr src, .inPlace, cnt, cnt, some t, some t⟩)
    (red : (Nat → Nat → Nat) → Nat → Nat → Nat) (junk : Buf) (mem : Nat → Buf) :
    run .scatter n root red junk args mem root = .badPtr := by
  have hst : start .scatter root root (mem root) junk (args root) =
      some (buffers (mem root) junk (.addr src) .inPlace .inPlace cnt cnt t t) := by
    rw [hargs]; simp [start, prepare, inPlace]
  rw [run_of hst (Or.inl (send_addr ..)) (has_user _ _ _ _ _ _ _ _ _ _ ht)]
  · have hb : (buffers (mem root) junk (.addr src) .inPlace .inPlace cnt cnt t t).bytes = cnt * t.size := rfl
    rw [hb]
    have hf : ∀ len data, (buffers (mem root) junk (.addr src) .inPlace .inPlace cnt cnt t t).finish len data (mem root) junk =
        if len = 0 then .ok (mem root) else .badPtr := by
      intro len data
      simp [Op.finish, buffers, ht, Ptr.raw]
    rw [hf]
    have hw : writes .scatter n root root (cnt * t.size) = cnt * t.size := rfl
    rw [hw, if_neg (by omega)]
  · simp [buffers, ht, EBuf.has, Ptr.raw]

/-- In place, the contribution to an allgather is looked for at a multiple of the extent, which is
one stride for a dense vector: rank 1 sends bytes 4-11 instead of 8-15. -/
theorem C116_in_place_extent_refuted :
    ¬ ∀ (t : Ty) (cnt rank : Nat) (d : Int) (mem junk : Buf), t.Pos → t.contig = true →
      ∃ o, start .allgather 0 rank mem junk ⟨.inPlace, .addr d, cnt, cnt, some t, some t⟩ = some o ∧
        ∀ j, j < cnt * t.size → o.source mem j = mem (d + (rank * (cnt * t.size) : Nat) + j) := by
  intro h
  obtain ⟨o, h1, h2⟩ := h (vector 2 1 1 (.prim 4)) 1 1 0 (fun i => i.toNat) (fun _ => 0) (by simp [vector, Ty.Pos]) (by decide)
  have h1 : o = buffers (fun i => i.toNat) (fun _ => 0) (.addr 4) (.addr 0) (.addr 0) 1 1 (vector 2 1 1 (.prim 4)) (vector 2 1 1 (.prim 4)) :=
    (Option.some.inj h1).symm
  have h3 := h2 0 (by decide)
  rw [h1, source_user _ _ _ _ _ _ _ _ _ (by decide)] at h3
  revert h3
  decide

/-- An all-to-all in place overwrites a block before it has been copied: after the initial copies
of rank 1 of 2 the block for rank 0 is lost. -/
theorem C116_alltoall_in_place_refuted :
    ¬ ∀ (n rank e : Nat) (dst : Int) (mem : Buf), rank < n → ∀ p j, p < n → j < e →
      bruckInit mem dst dst n rank e (dst + ((p + n - rank) % n * e + j : Nat)) = mem (dst + (p * e + j : Nat)) := by
  intro h
  have := h 2 1 1 0 (fun i => i.toNat) (by omega) 0 0 (by omega) (by omega)
  revert this
  decide

/-- With separate buffers the initial copies do rotate. -/
theorem C116_alltoall_init (n rank e : Nat) (dst src : Int) (mem : Buf) (hr : rank < n)
    (hsep : dst + (n * e : Nat) ≤ src ∨ src + (n * e : Nat) ≤ dst) (p j : Nat) (hp : p < n) (hj : j < e) :
    bruckInit mem dst src n rank e (dst + ((p + n - rank) % n * e + j : Nat)) = mem (src + (p * e + j : Nat)) := by
  have hpe : p * e + j < n * e := by
    have : (p + 1) * e ≤ n * e := Nat.mul_le_mul_right _ hp
    rw [Nat.succ_mul] at this
    omega
  have hre : rank * e ≤ n * e := Nat.mul_le_mul_right _ (by omega)
  have hsub : n * e - rank * e = (n - rank) * e := (Nat.sub_mul ..).symm
  unfold bruckInit memcpy
  by_cases hpr : rank ≤ p
  · have hm : (p + n - rank) % n = p - rank := by
      have : p + n - rank = (p - rank) + n := by omega
      rw [this, Nat.add_mod_right, Nat.mod_eq_of_lt (by omega)]
    have h1 : (p - rank) * e + rank * e = p * e := by rw [← Nat.add_mul]; congr 1; omega
    rw [hm]
    have hlt : (p - rank) * e + j < n * e - rank * e := by omega
    rw [if_neg (by omega), if_pos ⟨by omega, by omega⟩]
    congr 1
    omega
  · have hm : (p + n - rank) % n = p + n - rank := Nat.mod_eq_of_lt (by omega)
    have h1 : (p + n - rank) * e = p * e + (n * e - rank * e) := by
      rw [hsub, ← Nat.add_mul]; congr 1; omega
    have h2 : (p + 1) * e ≤ rank * e := Nat.mul_le_mul_right _ (by omega)
    rw [Nat.succ_mul] at h2
    rw [hm]
    rw [if_pos ⟨by omega, by omega⟩, if_neg (by omega)]
    congr 1
    omega

example : bruckInit (fun i => i.toNat) 10 0 3 2 1 10 = 2 ∧ bruckInit (fun i => i.toNat) 10 0 3 2 1 11 = 0 := by decide

/-! ### Collectives with a count per rank -/

theorem prefixSum_succ (cnt : Nat → Nat) (p : Nat) : prefixSum cnt (p + 1) = prefixSum cnt p + cnt p := by
  simp [prefixSum, List.range_succ]

theorem prefixSum_mono (cnt : Nat → Nat) {p q : Nat} (h : p ≤ q) : prefixSum cnt p ≤ prefixSum cnt q := by
  induction q with
  | zero => have : p = 0 := by omega
            subst this; exact Nat.le_refl _
  | succ q ih =>
    rcases Nat.lt_or_ge p (q + 1) with h1 | h1
    · have := ih (by omega)
      rw [prefixSum_succ]; omega
    · have : p = q + 1 := by omega
      subst this; exact Nat.le_refl _

theorem find_block (n : Nat) (f : Nat → Bool) (p : Nat) (hp : p < n) (h1 : f p = true) (h2 : ∀ q, q < p → f q = false) :
    (List.range n).find? f = some p := by
  rw [List.find?_eq_some_iff_append]
  refine ⟨h1, List.range p, (List.range (n - p - 1)).map (fun i => p + 1 + i), ?_, ?_⟩
  · apply List.ext_getElem?
    intro i
    by_cases hi : i < p
    · rw [List.getElem?_append_left (by simpa using hi), List.getElem?_range (by omega), List.getElem?_range hi]
    · rw [List.getElem?_append_right (by simpa using Nat.le_of_not_lt hi), List.length_range]
      by_cases hi2 : i = p
      · subst hi2
        rw [Nat.sub_self, List.getElem?_range hp]; rfl
      · have : i - p = (i - p - 1) + 1 := by omega
        rw [this, List.getElem?_cons_succ, List.getElem?_map]
        by_cases hi3 : i < n
        · rw [List.getElem?_range hi3, List.getElem?_range (by omega)]
          simp
          omega
        · rw [List.getElem?_eq_none (by simpa using Nat.le_of_not_lt hi3), List.getElem?_eq_none (by simp; omega)]
          rfl
  · intro q hq
    rw [h2 q (by simpa using hq)]
    rfl

/-- `MPI_Allgatherv` of contiguous types, when the displacements are those of blocks one after the
other: the block of every rank is at its displacement. -/
theorem C116_allgatherv_partial (n : Nat) (t : Ty) (ht : t.contig = true) (cnt : Nat → Nat) (displs : Nat → Int)
    (hd : ∀ p, p < n → displs p = prefixSum cnt p) (src : Nat → Int) (dst : Int) (mem : Nat → Buf) (rank : Nat) :
    ∃ m', allgatherv n t cnt displs src dst mem rank = some m' ∧
      (∀ p, p < n → ∀ j, j < cnt p * t.size → m' (dst + displs p * t.size + j) = mem p (src p + j)) ∧
      (∀ i : Int, (i < dst ∨ dst + prefixSum cnt n * t.size ≤ i) → m' i = mem rank i) := by
  unfold allgatherv
  rw [if_neg (by simp [ht])]
  refine ⟨_, rfl, ?_, ?_⟩
  · intro p hp j hj
    rw [hd p hp]
    have hs := prefixSum_succ cnt p
    have hm := prefixSum_mono cnt (show p + 1 ≤ n by omega)
    have hs2 : prefixSum cnt (p + 1) * t.size = prefixSum cnt p * t.size + cnt p * t.size := by rw [hs, Nat.add_mul]
    have hm2 : prefixSum cnt (p + 1) * t.size ≤ prefixSum cnt n * t.size := Nat.mul_le_mul_right _ hm
    have e1 : (prefixSum cnt p : Int) * (t.size : Int) = ((prefixSum cnt p * t.size : Nat) : Int) := by push_cast; rfl
    have e2 : (prefixSum cnt n : Int) * (t.size : Int) = ((prefixSum cnt n * t.size : Nat) : Int) := by push_cast; rfl
    have e3 : ∀ q, (prefixSum cnt (q + 1) : Int) * (t.size : Int) = ((prefixSum cnt (q + 1) * t.size : Nat) : Int) := by
      intro q; push_cast; rfl
    rw [e1, if_pos ⟨by omega, by omega⟩, find_block n _ p hp]
    · simp only
      rw [e1]
      congr 1
      omega
    · rw [e3]
      simp only [decide_eq_true_eq]
      omega
    · intro q hq
      have h1 := prefixSum_mono cnt (show q + 1 ≤ p by omega)
      have h2 : prefixSum cnt (q + 1) * t.size ≤ prefixSum cnt p * t.size := Nat.mul_le_mul_right _ h1
      rw [e3]
      simp only [decide_eq_false_iff_not]
      omega
  · intro i hi
    rw [if_neg (by omega)]

/-- Ranks with 1, 2 and 3 elements. -/
example : ∀ p, p < 3 → ([0, 1, 3][p]?.getD 0 : Int) = prefixSum (fun p => p + 1) p := by
  intro p hp
  match p, hp with
  | 0, _ => decide
  | 1, _ => decide
  | 2, _ => decide

/-- Other displacements are ignored. -/
theorem C116_allgatherv_displs_refuted :
    ¬ ∀ (n : Nat) (t : Ty) (cnt : Nat → Nat) (displs : Nat → Int) (src : Nat → Int) (dst : Int) (mem : Nat → Buf) (rank : Nat), t.contig = true →
      (∀ p q, p < q → displs p + cnt p ≤ displs q) →
      ∃ m', allgatherv n t cnt displs src dst mem rank = some m' ∧
        ∀ p, p < n → ∀ j, j < cnt p * t.size → m' (dst + displs p * t.size + j) = mem p (src p + j) := by
  intro h
  obtain ⟨m', h1, h2⟩ := h 2 (.prim 1) (fun _ => 1) (fun p => 2 * p) (fun _ => 0) 10 (fun p i => if i = 0 then p + 1 else 0) 0 (by decide) (by
    intro p q hpq
    omega)
  have h3 := h2 1 (by omega) 0 (by decide)
  unfold allgatherv at h1
  rw [if_neg (by decide)] at h1
  rw [← Option.some.inj h1] at h3
  revert h3
  decide

/-- `MPI_Allgatherv` of types that are not contiguous aborts. -/
theorem C116_allgatherv_type_refuted (n : Nat) (t : Ty) (ht : t.contig = false) (cnt : Nat → Nat) (displs : Nat → Int) (src : Nat → Int)
    (dst : Int) (mem : Nat → Buf) (rank : Nat) : allgatherv n t cnt displs src dst mem rank = none := by
  unfold allgatherv; rw [if_pos ht]

theorem sum_const (n c : Nat) (f : Nat → Nat) (h : ∀ p, p < n → f p = c) : ((List.range n).map f).sum = n * c := by
  induction n with
  | zero => simp
  | succ n ih =>
    rw [List.range_succ, List.map_append, List.sum_append, ih (fun p hp => h p (by omega))]
    simp only [List.map_cons, List.map_nil, List.sum_cons, List.sum_nil, Nat.add_zero]
    rw [h n (by omega), Nat.succ_mul]

/-- Without buffers, calls with a count per rank are simulated with one count; it is the right one if
all counts are equal. -/
theorem C116_null_counts_partial (n c root rank : Nat) (hn : 0 < n) (counts : Nat → Nat) (h : ∀ p, p < n → counts p = c) :
    alltoallvNull n counts counts = (c, c) ∧ gathervNull n root rank c counts = (c, c) ∧ scattervNull n root rank c counts = (c, c) := by
  have hs : ((List.range n).map counts).sum / n = c := by
    rw [sum_const n c counts h, Nat.mul_div_cancel_left _ hn]
  refine ⟨?_, ?_, ?_⟩
  · simp [alltoallvNull, hs]
  · unfold gathervNull; rw [hs]; simp
  · unfold scattervNull; rw [hs]; simp

/-- Otherwise the volume is not that of the call. -/
theorem C116_null_volume_refuted :
    ¬ ∀ (n : Nat) (counts : Nat → Nat), 0 < n → n * (alltoallvNull n counts counts).1 = ((List.range n).map counts).sum := by
  intro h
  have := h 2 (fun p => if p = 0 then 1 else 0) (by omega)
  revert this
  decide

/-- ...and the ranks of one gather use different counts. -/
theorem C116_null_gatherv_refuted :
    ¬ ∀ (n root : Nat) (counts : Nat → Nat), root < n → ∀ p q, p < n → q < n →
      (gathervNull n root p (counts p) counts).1 = (gathervNull n root q (counts q) counts).1 := by
  intro h
  have := h 2 0 (fun p => p) (by omega) 0 1 (by omega) (by omega)
  revert this
  decide

/-- The short form of `gatherv` passes the type as the count. -/
theorem C116_gatherv_short_refuted : ¬ ∀ count type, gathervShort count type = (count, type) := by
  intro h
  have := h 1 2
  revert this
  decide

end SST.Mpi.CollCall
