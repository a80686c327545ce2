import Verif.Mpi.Types
/-!
C28: derived datatypes.  The model is Types.lean.

What holds: for every type that can be built with positive block lengths, what is packed is
unpacked to the same offsets and nothing else is touched (C28_roundtrip_partial); the
transferred bytes are those of the MPI type map for dense vectors and for strided vectors of
single elements.  What does not hold (refuted below): contiguous types of two or more
elements, strided vectors with longer blocks, indexed types with displacements, structs with
gaps, blocks of length zero.
-/
set_option autoImplicit false
namespace SST.Mpi.Types

mutual
/-- Every vector inside has a positive block length. -/
def Ty.Pos : Ty → Prop
  | .prim _ => True
  | .vec b _ k _ => 0 < k ∧ b.Pos
  | .ind bs _ => bs.Pos
/-- Every vector inside the blocks has a positive block length. -/
def Blocks.Pos : Blocks → Prop
  | .nil => True
  | .cons b _ _ r => b.Pos ∧ r.Pos
end

/-- Packed offsets are below `n` and pairwise different. -/
def Fits (n : Nat) (l : List (Nat × Int)) : Prop :=
  (∀ x ∈ l, x.1 < n) ∧ l.Pairwise (fun a b => a.1 ≠ b.1)

theorem Fits.mono {n m : Nat} {l : List (Nat × Int)} (h : Fits n l) (hnm : n ≤ m) : Fits m l :=
  ⟨fun x hx => Nat.lt_of_lt_of_le (h.1 x hx) hnm, h.2⟩

theorem fits_block (n : Nat) : Fits n (block n) := by
  constructor
  · intro x hx
    obtain ⟨i, hi, rfl⟩ := List.mem_map.mp hx
    simpa using hi
  · rw [block, List.pairwise_map]
    exact List.nodup_range

theorem fits_append {n m : Nat} {a b : List (Nat × Int)} (u : Int) (ha : Fits n a) (hb : Fits m b) :
    Fits (n + m) (a ++ shift n u b) := by
  constructor
  · intro x hx
    simp only [List.mem_append] at hx
    rcases hx with hx | hx
    · have := ha.1 x hx; omega
    · obtain ⟨y, hy, rfl⟩ := List.mem_map.mp hx
      have := hb.1 y hy
      simp only
      omega
  · rw [List.pairwise_append]
    refine ⟨ha.2, ?_, ?_⟩
    · rw [shift, List.pairwise_map]
      refine hb.2.imp ?_
      intro x y h
      simp only
      omega
    · intro x hx y hy
      obtain ⟨z, _, rfl⟩ := List.mem_map.mp hy
      have := ha.1 x hx
      simp only
      omega

theorem repeat_succ (num size : Nat) (ext : Int) (l : List (Nat × Int)) :
    repeatCopies (num + 1) size ext l = repeatCopies num size ext l ++ shift (num * size) (num * ext) l := by
  simp [repeatCopies, List.range_succ]

theorem fits_repeat (num size : Nat) (ext : Int) (l : List (Nat × Int)) (h : Fits size l) :
    Fits (num * size) (repeatCopies num size ext l) := by
  induction num with
  | zero => constructor <;> simp [repeatCopies]
  | succ num ih =>
    rw [repeat_succ, Nat.succ_mul]
    exact fits_append _ ih h

mutual
theorem Ty.fits (t : Ty) (h : t.Pos) : Fits t.size t.copies := by
  cases t with
  | prim n => exact fits_block n
  | vec b c k s =>
    obtain ⟨hk, hb⟩ := h
    refine (fits_repeat c b.size s b.copies (Ty.fits b hb)).mono ?_
    exact Nat.mul_le_mul_right _ (Nat.le_mul_of_pos_right c hk)
  | ind bs e => exact Blocks.fits bs h
theorem Blocks.fits (bs : Blocks) (h : bs.Pos) : Fits bs.size bs.copies := by
  cases bs with
  | nil => constructor <;> simp [Blocks.copies]
  | cons b d n r =>
    obtain ⟨hb, hr⟩ := h
    simp only [Blocks.size, Blocks.copies]
    refine fits_append _ ?_ (Blocks.fits r hr)
    split
    · exact fits_block _
    · rw [Nat.mul_comm]
      exact fits_repeat _ _ _ _ (Ty.fits b hb)
end

theorem fits_xfer (t : Ty) (h : t.Pos) (cnt : Nat) : Fits (cnt * t.size) (xfer t cnt) := by
  unfold xfer
  split
  · exact fits_block _
  · exact fits_repeat _ _ _ _ (t.fits h)

theorem packRun_spec (l : List (Nat × Int)) (user packed : Buf)
    (hn : l.Pairwise (fun a b => a.1 ≠ b.1)) :
    ∀ x ∈ l, packRun l user packed x.1 = user x.2 := by
  unfold packRun
  have hkeep : ∀ (l : List (Nat × Int)) (m : Buf) (p : Nat), (∀ x ∈ l, x.1 ≠ p) →
      (l.foldl (fun m x => m.put x.1 (user x.2)) m) (p : Int) = m p := by
    intro l
    induction l with
    | nil => intro m p _; rfl
    | cons a l ih =>
      intro m p h
      simp only [List.foldl_cons]
      rw [ih _ p (fun x hx => h x (by simp [hx]))]
      have := h a (by simp)
      simp only [Buf.put]
      rw [if_neg (by omega)]
  induction l generalizing packed with
  | nil => simp
  | cons a l ih =>
    obtain ⟨h1, h2⟩ := List.pairwise_cons.mp hn
    intro x hx
    simp only [List.mem_cons] at hx
    simp only [List.foldl_cons]
    rcases hx with rfl | hx
    · rw [hkeep l _ x.1 (fun y hy e => h1 y hy e.symm)]
      simp [Buf.put]
    · exact ih _ h2 x hx

theorem packRun_other (l : List (Nat × Int)) (user packed : Buf) (p : Int)
    (h : ∀ x ∈ l, (x.1 : Int) ≠ p) : packRun l user packed p = packed p := by
  unfold packRun
  induction l generalizing packed with
  | nil => rfl
  | cons a l ih =>
    simp only [List.foldl_cons]
    rw [ih _ (fun x hx => h x (by simp [hx]))]
    have := h a (by simp)
    simp only [Buf.put]
    rw [if_neg (fun e => this e.symm)]

theorem unpackRun_other (l : List (Nat × Int)) (packed user : Buf) (u : Int)
    (h : ∀ x ∈ l, x.2 ≠ u) : unpackRun l packed user u = user u := by
  unfold unpackRun
  induction l generalizing user with
  | nil => rfl
  | cons a l ih =>
    simp only [List.foldl_cons]
    rw [ih _ (fun x hx => h x (by simp [hx]))]
    have := h a (by simp)
    simp only [Buf.put]
    rw [if_neg (fun e => this e.symm)]

theorem unpackRun_spec (l : List (Nat × Int)) (packed user src : Buf)
    (hp : ∀ x ∈ l, packed x.1 = src x.2) (u : Int) (hu : ∃ x ∈ l, x.2 = u) :
    unpackRun l packed user u = src u := by
  unfold unpackRun
  induction l generalizing user with
  | nil => obtain ⟨x, hx, _⟩ := hu; simp at hx
  | cons a l ih =>
    simp only [List.foldl_cons]
    by_cases h : ∃ x ∈ l, x.2 = u
    · exact ih _ (fun x hx => hp x (by simp [hx])) h
    · have hne : ∀ x ∈ l, x.2 ≠ u := fun x hx e => h ⟨x, hx, e⟩
      have := unpackRun_other l packed (user.put a.2 (packed a.1)) u hne
      unfold unpackRun at this
      rw [this]
      obtain ⟨x, hx, e⟩ := hu
      simp only [List.mem_cons] at hx
      rcases hx with rfl | hx
      · rw [← e]
        simp only [Buf.put, if_pos]
        exact hp x (by simp)
      · exact absurd e (hne x hx)

/-! ### C28 -/

/-- For every type with positive block lengths and every number of elements, sending with
that type and receiving with the same type copies each touched byte to the same offset,
leaves every other byte of the receive buffer alone, does not depend on the initial content
of the packed buffer, and stays inside that buffer.  Missing: that the touched bytes are the
ones of the type map (see the theorems and refutations below). -/
theorem C28_roundtrip_partial (t : Ty) (h : t.Pos) (cnt : Nat) (src dst junk : Buf) :
    (∀ u, (∃ x ∈ xfer t cnt, x.2 = u) → sendRecv t t cnt src dst junk u = src u) ∧
    (∀ u, (¬ ∃ x ∈ xfer t cnt, x.2 = u) → sendRecv t t cnt src dst junk u = dst u) ∧
    (∀ p, (p < 0 ∨ (cnt * t.size : Nat) ≤ p) → packRun (xfer t cnt) src junk p = junk p) := by
  have hf := fits_xfer t h cnt
  refine ⟨?_, ?_, ?_⟩
  · intro u hu
    exact unpackRun_spec _ _ _ src (packRun_spec _ src junk hf.2) u hu
  · intro u hu
    exact unpackRun_other _ _ _ u (fun x hx e => hu ⟨x, hx, e⟩)
  · intro p hp
    refine packRun_other _ _ _ p ?_
    intro x hx e
    have := hf.1 x hx
    omega

example : (vector 3 2 4 (struct [(1, 0, .prim 8), (2, 8, .prim 4)])).Pos :=
  ⟨by decide, trivial, trivial, trivial⟩

/-- Specification (MPI standard): the byte offsets of a vector of `count` blocks of
`blocklen` elements of `n` bytes, blocks `stride` elements apart. -/
def vectorBytes (count blocklen : Nat) (stride : Int) (n : Nat) : List Int :=
  ((List.range count).map (fun (j : Nat) => (List.range (blocklen * n)).map
    (fun (i : Nat) => (j : Int) * (stride * n) + i))).flatten

/-- Strided vectors of single elements: one element of the type transfers exactly the bytes
of the type map, in order. -/
theorem C28_vector_single_partial (count n : Nat) (stride : Int) (hs : stride ≠ 1) (hn : 0 < n) :
    (xfer (vector count 1 stride (.prim n)) 1).map (·.2) = vectorBytes count 1 stride n := by
  have hc : (vector count 1 stride (.prim n)).contig = false := by
    simp only [vector, Ty.contig, Ty.extent, Bool.and_true]
    apply decide_eq_false
    intro h
    apply hs
    have hn' : (n : Int) ≠ 0 := by omega
    exact Int.eq_of_mul_eq_mul_right hn' (by simpa using h)
  unfold xfer
  rw [hc]
  simp only [vector, Ty.copies, Ty.size, Ty.extent, repeatCopies, block, shift, vectorBytes]
  simp only [List.range_one, List.map_cons, List.map_nil, List.flatten_cons, List.flatten_nil,
    List.append_nil, Nat.zero_mul, Nat.zero_add, Int.natCast_zero, Int.zero_mul, Int.zero_add,
    List.map_map, List.map_flatten, Bool.false_eq_true, if_false, Nat.one_mul]
  congr 1
  apply List.map_congr_left
  intro j _
  simp [Function.comp_def]

example : (xfer (vector 3 1 4 (.prim 2)) 1).map (·.2) = [0, 1, 8, 9, 16, 17] := by decide +kernel

/-- Dense vectors (stride equal to the block length) of primitive elements: any number of
elements transfers exactly the consecutive bytes of the type map. -/
theorem C28_vector_dense_partial (count blocklen n cnt : Nat) :
    (xfer (vector count blocklen blocklen (.prim n)) cnt).map (·.2) =
      (List.range (cnt * (count * blocklen * n))).map Int.ofNat := by
  have hc : (vector count blocklen blocklen (.prim n)).contig = true := by
    simp [vector, Ty.contig, Ty.extent]
  unfold xfer
  rw [hc]
  simp [vector, Ty.size, block, Function.comp_def]

example : vectorBytes 2 2 2 3 = (List.range (1 * (2 * 2 * 3))).map Int.ofNat := by decide +kernel

/-- Structs of primitive fields laid out without gaps: any number of elements transfers
exactly the consecutive bytes of the fields. -/
def Dense : Int → List (Nat × Int × Nat) → Prop
  | _, [] => True
  | off, (len, disp, n) :: l => 0 < len ∧ disp = off ∧ Dense (off + n * len) l

/-- Fields (length, displacement, size) as primitive types. -/
def primFields (l : List (Nat × Int × Nat)) : List (Nat × Int × Ty) :=
  l.map (fun x => (x.1, x.2.1, .prim x.2.2))

theorem dense_struct (l : List (Nat × Int × Nat)) (off : Int) (h : Dense off l) :
    (structBlocks off (primFields l)).2 = off + ((structBlocks off (primFields l)).1.size : Nat) ∧
    (structBlocks off (primFields l)).1.size = (l.map (fun x => x.2.2 * x.1)).sum := by
  induction l generalizing off with
  | nil => simp [primFields, structBlocks, Blocks.size]
  | cons a l ih =>
    obtain ⟨len, disp, n⟩ := a
    obtain ⟨h1, h2, h3⟩ := h
    obtain ⟨e1, e2⟩ := ih _ h3
    subst h2
    simp only [primFields, List.map_cons, structBlocks, if_pos h1, Ty.size, Blocks.size,
      List.sum_cons] at e1 e2 ⊢
    rw [e1, e2]
    refine ⟨?_, rfl⟩
    simp only [Int.natCast_add, Int.natCast_mul]
    omega

theorem C28_struct_dense_partial (l : List (Nat × Int × Nat)) (h : Dense 0 l) (cnt : Nat) :
    (xfer (struct (primFields l)) cnt).map (·.2) =
      (List.range (cnt * (l.map (fun x => x.2.2 * x.1)).sum)).map Int.ofNat := by
  obtain ⟨h1, h2⟩ := dense_struct l 0 h
  have hc : (struct (primFields l)).contig = true := by
    simp only [struct, Ty.contig, decide_eq_true_eq]
    omega
  unfold xfer
  rw [hc]
  simp [struct, Ty.size, block, Function.comp_def, h2]

example : Dense 0 [(1, 0, 8), (2, 8, 4)] := by simp [Dense]

/-- Refuted: a contiguous type of two 4-byte integers transfers bytes 0-3 and 8-11 instead
of 0-7. -/
theorem C28_contiguous_refuted :
    (xfer (contiguous 2 (.prim 4)) 1).map (·.2) = [0, 1, 2, 3, 8, 9, 10, 11] := by decide +kernel

/-- Refuted: two blocks of two bytes, three apart: the second byte of each block is lost
(the type map has 0, 1, 3, 4). -/
theorem C28_vector_block_refuted :
    (xfer (vector 2 2 3 (.prim 1)) 1).map (·.2) = [0, 3] ∧
    vectorBytes 2 2 3 1 = [0, 1, 3, 4] := by decide +kernel

/-- Refuted: an indexed type with single bytes at 4 and 9 transfers bytes 0 and 1. -/
theorem C28_indexed_refuted :
    (xfer (hindexed [(1, 4), (1, 9)] (.prim 1)) 1).map (·.2) = [0, 1] := by decide +kernel

/-- Refuted: a struct of a byte at 0 and four bytes at 4 transfers bytes 0-4. -/
theorem C28_struct_gap_refuted :
    (xfer (struct [(1, 0, .prim 1), (1, 4, .prim 4)]) 1).map (·.2) = [0, 1, 2, 3, 4] := by
  decide +kernel

/-- Refuted: two strided elements in a row: the second element of the type starts one
stride, not one extent, after the first (the type map has 0, 2, then 3, 5). -/
theorem C28_extent_refuted :
    (xfer (vector 2 1 2 (.prim 1)) 2).map (·.2) = [0, 2, 2, 4] := by decide +kernel

/-- Refuted: blocks of length zero: the packed size is zero but bytes are written. -/
theorem C28_zero_block_refuted :
    (vector 2 0 1 (.prim 1)).size = 0 ∧
    (xfer (vector 2 0 1 (.prim 1)) 1).map (·.1) = [0, 1] := by decide +kernel

end SST.Mpi.Types
