import Verif.Apps.Fft
import Verif.Apps.ProgLemmas
set_option autoImplicit false

/-!
# Theorems about fft and offered_load
-/

namespace Verif.Apps.Fft

/-- What the options must satisfy: a grid of processes. -/
structure Grid (o : Opts) : Prop where
  x : 0 < o.dx
  y : 0 < o.dy
  z : 0 < o.dz
  size : o.dx * o.dy * o.dz = o.size

/-- A rank. -/
def Has (o : Opts) (r : Int) : Prop := 0 ≤ r ∧ r < o.size

/-- The rank at a place, `calc_pe` of fft.cc:53. -/
def pe (o : Opts) (x y z : Int) : Int := x + y * o.dx + z * o.dx * o.dy

theorem coord {o : Opts} (g : Grid o) {r : Int} (h : Has o r) :
    0 ≤ posX o r ∧ posX o r < o.dx ∧ 0 ≤ posY o r ∧ posY o r < o.dy ∧ 0 ≤ posZ o r ∧ posZ o r < o.dz ∧ r = pe o (posX o r) (posY o r) (posZ o r) := by
  have hx := g.x
  have hxy : 0 < o.dx * o.dy := Int.mul_pos hx g.y
  have hm : r % (o.dx * o.dy * o.dz) = r := by rw [g.size]; exact Int.emod_eq_of_lt h.1 h.2
  have hp : 0 ≤ r % (o.dx * o.dy) := Int.emod_nonneg _ (by omega)
  unfold posX posY posZ pe
  rw [Int.tmod_eq_emod_of_nonneg h.1, Int.tmod_eq_emod_of_nonneg h.1, Int.tmod_eq_emod_of_nonneg h.1, hm, Int.tdiv_eq_ediv_of_nonneg h.1, Int.tdiv_eq_ediv_of_nonneg hp]
  refine ⟨Int.emod_nonneg _ (by omega), Int.emod_lt_of_pos _ hx, Int.ediv_nonneg hp (by omega), ?_, Int.ediv_nonneg h.1 (by omega), ?_, ?_⟩
  · rw [Int.ediv_lt_iff_lt_mul hx, Int.mul_comm o.dy]; exact Int.emod_lt_of_pos _ hxy
  · rw [Int.ediv_lt_iff_lt_mul hxy, Int.mul_comm o.dz, g.size]; exact h.2
  · have e1 := Int.mul_ediv_add_emod (r % (o.dx * o.dy)) o.dx
    have e2 := Int.mul_ediv_add_emod r (o.dx * o.dy)
    have e3 : r % (o.dx * o.dy) % o.dx = r % o.dx := Int.emod_emod_of_dvd _ (Int.dvd_mul_right _ _)
    rw [e3] at e1
    rw [Int.mul_comm (r % (o.dx * o.dy) / o.dx), Int.mul_assoc, Int.mul_comm (r / _)]
    omega

theorem coord_inv {o : Opts} (g : Grid o) {x y z : Int} (x0 : 0 ≤ x) (x1 : x < o.dx) (y0 : 0 ≤ y) (y1 : y < o.dy) (z0 : 0 ≤ z) (z1 : z < o.dz) :
    Has o (pe o x y z) ∧ posX o (pe o x y z) = x ∧ posY o (pe o x y z) = y ∧ posZ o (pe o x y z) = z := by
  have hx := g.x
  have hxy : 0 < o.dx * o.dy := Int.mul_pos hx g.y
  have h1 : 0 ≤ y * o.dx := Int.mul_nonneg y0 (by omega)
  have h2 : (y + 1) * o.dx ≤ o.dy * o.dx := Int.mul_le_mul_of_nonneg_right (by omega) (by omega)
  rw [Int.add_mul, Int.one_mul, Int.mul_comm o.dy] at h2
  have h3 : 0 ≤ z * (o.dx * o.dy) := Int.mul_nonneg z0 (by omega)
  have h4 : (z + 1) * (o.dx * o.dy) ≤ o.dz * (o.dx * o.dy) := Int.mul_le_mul_of_nonneg_right (by omega) (by omega)
  rw [Int.add_mul, Int.one_mul, Int.mul_comm o.dz, g.size] at h4
  have hpe : pe o x y z = x + y * o.dx + z * (o.dx * o.dy) := by unfold pe; rw [Int.mul_assoc z]
  have hh : Has o (pe o x y z) := by rw [hpe]; exact ⟨by omega, by omega⟩
  have hlow : (pe o x y z) % (o.dx * o.dy) = x + y * o.dx := by
    rw [hpe, Int.add_mul_emod_self_right, Int.emod_eq_of_lt (by omega) (by omega)]
  have hm : (pe o x y z) % (o.dx * o.dy * o.dz) = pe o x y z := by rw [g.size]; exact Int.emod_eq_of_lt hh.1 hh.2
  refine ⟨hh, ?_, ?_, ?_⟩
  · unfold posX
    rw [Int.tmod_eq_emod_of_nonneg hh.1, ← Int.emod_emod_of_dvd _ (Int.dvd_mul_right o.dx o.dy), hlow, Int.add_mul_emod_self_right, Int.emod_eq_of_lt x0 x1]
  · unfold posY
    rw [Int.tmod_eq_emod_of_nonneg hh.1, hlow, Int.tdiv_eq_ediv_of_nonneg (by omega), Int.add_mul_ediv_right _ _ (by omega), Int.ediv_eq_zero_of_lt x0 x1, Int.zero_add]
  · unfold posZ
    rw [Int.tmod_eq_emod_of_nonneg hh.1, hm, Int.tdiv_eq_ediv_of_nonneg hh.1, hpe, Int.add_mul_ediv_right _ _ (by omega), Int.ediv_eq_zero_of_lt (by omega) (by omega), Int.zero_add]

theorem digits_unique {p a b c d : Int} (b0 : 0 ≤ b) (b1 : b < p) (d0 : 0 ≤ d) (d1 : d < p) (h : a * p + b = c * p + d) : a = c ∧ b = d := by
  have h1 : (a * p + b) % p = (c * p + d) % p := by rw [h]
  rw [Int.add_comm (a * p), Int.add_comm (c * p), Int.add_mul_emod_self_right, Int.add_mul_emod_self_right, Int.emod_eq_of_lt b0 b1, Int.emod_eq_of_lt d0 d1] at h1
  refine ⟨?_, h1⟩
  have : a * p = c * p := by omega
  exact Int.eq_of_mul_eq_mul_right (by omega) this

/-- Lists that increase and have the same elements are equal. -/
theorem eq_of_sorted {l m : List Int} (hl : l.Pairwise (· < ·)) (hm : m.Pairwise (· < ·)) (h : ∀ a, a ∈ l ↔ a ∈ m) : l = m := by
  have hp : l.Perm m := (List.perm_ext_iff_of_nodup (hl.imp fun h => Int.ne_of_lt h) (hm.imp fun h => Int.ne_of_lt h)).mpr h
  exact hp.eq_of_pairwise (fun a b _ _ h1 h2 => by omega) hl hm

/-- Insertion sort leaves lists as they are in which the keys increase. -/
theorem sort_sorted (key : Int → Int) (l : List Int) (h : l.Pairwise fun a b => key a ≤ key b) : l.foldr (insert key) [] = l := by
  induction l with
  | nil => rfl
  | cons a l ih =>
    obtain ⟨h1, h2⟩ := List.pairwise_cons.mp h
    rw [List.foldr_cons, ih h2]
    cases l with
    | nil => rfl
    | cons b l => unfold insert; rw [if_pos (h1 b (by simp))]

theorem world_sorted (n : Nat) : ((List.range n).map Int.ofNat).Pairwise (· < ·) := by
  rw [List.pairwise_map]
  exact List.pairwise_lt_range.imp fun h => Int.ofNat_lt.mpr h

theorem mem_world {o : Opts} {q : Int} : q ∈ (List.range o.size.toNat).map Int.ofNat ↔ Has o q := by
  rw [List.mem_map]
  constructor
  · rintro ⟨a, ha, rfl⟩
    have := List.mem_range.mp ha
    exact ⟨Int.natCast_nonneg a, show (a : Int) < o.size by omega⟩
  · intro h
    have h0 := h.1
    have h1 := h.2
    exact ⟨q.toNat, List.mem_range.mpr (by omega), show ((q.toNat : Nat) : Int) = q by omega⟩

/-- A communicator by colours: if the ranks of the colour of `r` are `line 0`, …, `line (k - 1)`, in
increasing order and with increasing keys, these are its members. -/
theorem split_line {o : Opts} {colour key : Int → Int} {r : Int} (k : Int) (line : Int → Int)
    (hin : ∀ i, 0 ≤ i → i < k → Has o (line i) ∧ colour (line i) = colour r ∧ key (line i) = i)
    (hall : ∀ q, Has o q → colour q = colour r → ∃ i, 0 ≤ i ∧ i < k ∧ q = line i)
    (hinc : ∀ i j, 0 ≤ i → i < j → j < k → line i < line j) :
    split o.size colour key r = (List.range k.toNat).map fun (i : Nat) => line i := by
  have e : (((List.range o.size.toNat).map Int.ofNat).filter fun q => colour q = colour r) = (List.range k.toNat).map fun (i : Nat) => line i := by
    apply eq_of_sorted ((world_sorted _).filter _)
    · rw [List.pairwise_map]
      refine (List.pairwise_lt_range (n := k.toNat)).imp_of_mem ?_
      intro a b ha hb hab
      have := List.mem_range.mp hb
      exact hinc a b (by omega) (by omega) (by omega)
    · intro a
      rw [List.mem_filter, mem_world, decide_eq_true_eq, List.mem_map]
      constructor
      · rintro ⟨h1, h2⟩
        obtain ⟨i, i0, i1, e⟩ := hall a h1 h2
        exact ⟨i.toNat, List.mem_range.mpr (by omega), by rw [e]; congr 1; omega⟩
      · rintro ⟨i, hi, rfl⟩
        have := List.mem_range.mp hi
        obtain ⟨h1, h2, _⟩ := hin i (by omega) (by omega)
        exact ⟨h1, h2⟩
  unfold split
  rw [e]
  apply sort_sorted
  rw [List.pairwise_map]
  refine (List.pairwise_lt_range (n := k.toNat)).imp_of_mem ?_
  intro a b ha hb hab
  have h1 := List.mem_range.mp ha
  have h2 := List.mem_range.mp hb
  rw [(hin a (by omega) (by omega)).2.2, (hin b (by omega) (by omega)).2.2]
  omega

/-- The communicators of `fft` are the lines of the grid through the rank, in order. -/
theorem C128_fft_lines {o : Opts} (g : Grid o) {r : Int} (h : Has o r) :
    comm o r 1 = ((List.range o.dx.toNat).map fun (i : Nat) => pe o i (posY o r) (posZ o r)) ∧
    comm o r 2 = ((List.range o.dy.toNat).map fun (i : Nat) => pe o (posX o r) i (posZ o r)) ∧
    comm o r 3 = ((List.range o.dz.toNat).map fun (i : Nat) => pe o (posX o r) (posY o r) i) := by
  obtain ⟨x0, x1, y0, y1, z0, z1, e⟩ := coord g h
  have hx := g.x
  have hy := g.y
  refine ⟨?_, ?_, ?_⟩
  · apply split_line o.dx (fun i => pe o i (posY o r) (posZ o r))
    · intro i i0 i1
      obtain ⟨a, b, c, d⟩ := coord_inv g i0 i1 y0 y1 z0 z1
      exact ⟨a, by rw [c, d], b⟩
    · intro q hq hc
      obtain ⟨a0, a1, b0, b1, c0, c1, eq⟩ := coord g hq
      obtain ⟨hz, hy'⟩ := digits_unique b0 b1 y0 y1 hc
      exact ⟨posX o q, a0, a1, by rw [← hz, ← hy']; exact eq⟩
    · intro i j _ hij _
      show pe o i _ _ < pe o j _ _
      unfold pe; omega
  · apply split_line o.dy (fun i => pe o (posX o r) i (posZ o r))
    · intro i i0 i1
      obtain ⟨a, b, c, d⟩ := coord_inv g x0 x1 i0 i1 z0 z1
      exact ⟨a, by rw [b, d], c⟩
    · intro q hq hc
      obtain ⟨a0, a1, b0, b1, c0, c1, eq⟩ := coord g hq
      obtain ⟨hz, hx'⟩ := digits_unique a0 a1 x0 x1 hc
      exact ⟨posY o q, b0, b1, by rw [← hz, ← hx']; exact eq⟩
    · intro i j _ hij _
      show pe o _ i _ < pe o _ j _
      unfold pe
      have := Int.mul_lt_mul_of_pos_right hij hx
      omega
  · apply split_line o.dz (fun i => pe o (posX o r) (posY o r) i)
    · intro i i0 i1
      obtain ⟨a, b, c, d⟩ := coord_inv g x0 x1 y0 y1 i0 i1
      exact ⟨a, by rw [b, c], d⟩
    · intro q hq hc
      obtain ⟨a0, a1, b0, b1, c0, c1, eq⟩ := coord g hq
      obtain ⟨hy', hx'⟩ := digits_unique a0 a1 x0 x1 hc
      exact ⟨posZ o q, c0, c1, by rw [← hy', ← hx']; exact eq⟩
    · intro i j _ hij _
      show pe o _ _ i < pe o _ _ j
      unfold pe
      have := Int.mul_lt_mul_of_pos_right (Int.mul_lt_mul_of_pos_right hij hx) hy
      omega

/-- A rank is in its communicators, and their members have the same ones. -/
theorem comm_equiv {o : Opts} (g : Grid o) {r : Int} (h : Has o r) (c : Fin 4) : r ∈ comm o r c ∧ ∀ q, q ∈ comm o r c → Has o q ∧ comm o q c = comm o r c := by
  obtain ⟨x0, x1, y0, y1, z0, z1, e⟩ := coord g h
  obtain ⟨l1, l2, l3⟩ := C128_fft_lines g h
  match c with
  | 0 => exact ⟨mem_world.mpr h, fun q hq => ⟨mem_world.mp hq, rfl⟩⟩
  | 1 =>
    rw [l1]
    refine ⟨List.mem_map.mpr ⟨(posX o r).toNat, List.mem_range.mpr (by omega), ?_⟩, ?_⟩
    · rw [show ((posX o r).toNat : Int) = posX o r by omega]; exact e.symm
    · intro q hq
      obtain ⟨i, hi, rfl⟩ := List.mem_map.mp hq
      have := List.mem_range.mp hi
      obtain ⟨a, b, c, d⟩ := coord_inv g (x := i) (by omega) (by omega) y0 y1 z0 z1
      refine ⟨a, ?_⟩
      rw [(C128_fft_lines g a).1, c, d]
  | 2 =>
    rw [l2]
    refine ⟨List.mem_map.mpr ⟨(posY o r).toNat, List.mem_range.mpr (by omega), ?_⟩, ?_⟩
    · rw [show ((posY o r).toNat : Int) = posY o r by omega]; exact e.symm
    · intro q hq
      obtain ⟨i, hi, rfl⟩ := List.mem_map.mp hq
      have := List.mem_range.mp hi
      obtain ⟨a, b, c, d⟩ := coord_inv g (y := i) x0 x1 (by omega) (by omega) z0 z1
      refine ⟨a, ?_⟩
      rw [(C128_fft_lines g a).2.1, b, d]
  | 3 =>
    rw [l3]
    refine ⟨List.mem_map.mpr ⟨(posZ o r).toNat, List.mem_range.mpr (by omega), ?_⟩, ?_⟩
    · rw [show ((posZ o r).toNat : Int) = posZ o r by omega]; exact e.symm
    · intro q hq
      obtain ⟨i, hi, rfl⟩ := List.mem_map.mp hq
      have := List.mem_range.mp hi
      obtain ⟨a, b, c, d⟩ := coord_inv g (z := i) x0 x1 y0 y1 (by omega) (by omega)
      refine ⟨a, ?_⟩
      rw [(C128_fft_lines g a).2.2, b, c]

/-- Members of a communicator have called the same collectives on it after the same number of calls. -/
theorem same_calls {o : Opts} (g : Grid o) {r q : Int} {ms : List Int} (hr : Has o r) (hq : Has o q) (rm : r ∈ ms) (qm : q ∈ ms) (k : Nat) :
    colls ((program o r).take k) ms = colls ((program o q).take k) ms := by
  unfold program colls
  rw [← List.map_take, ← List.map_take, List.filterMap_map, List.filterMap_map]
  congr 1
  funext c
  show isColl ms (.coll (comm o r c.1) c.2.1 c.2.2) = isColl ms (.coll (comm o q c.1) c.2.1 c.2.2)
  show (if comm o r c.1 = ms then some (c.2.1, c.2.2) else none) = (if comm o q c.1 = ms then some (c.2.1, c.2.2) else none)
  have e : comm o r c.1 = ms ↔ comm o q c.1 = ms := by
    constructor
    · intro h; rw [((comm_equiv g hr c.1).2 q (by rw [h]; exact qm)).2, h]
    · intro h; rw [((comm_equiv g hq c.1).2 r (by rw [h]; exact rm)).2, h]
  by_cases h : comm o r c.1 = ms
  · rw [if_pos h, if_pos (e.mp h)]
  · rw [if_neg h, if_neg (fun h' => h (e.mpr h'))]

/-- The members of each communicator make the same calls on it in the same order. -/
theorem C128_fft_agree {o : Opts} (g : Grid o) {W : World} (hW : app o = some W) : Agree W := by
  unfold app at hW
  rw [if_neg (by simp [g.size])] at hW
  cases hW
  intro r hr ms k n hi
  replace hr : Has o r := hr
  replace hi : Instr.coll ms k n ∈ (if 0 ≤ r ∧ r < o.size then program o r else []) := hi
  rw [if_pos ⟨hr.1, hr.2⟩] at hi
  obtain ⟨c, _, hc⟩ := List.mem_map.mp hi
  cases hc
  obtain ⟨h1, h2⟩ := comm_equiv g hr c.1
  refine ⟨h1, fun q hq => ⟨(h2 q hq).1, ?_⟩⟩
  have hq' := (h2 q hq).1
  show colls (if 0 ≤ q ∧ q < o.size then program o q else []) _ = colls (if 0 ≤ r ∧ r < o.size then program o r else []) _
  rw [if_pos ⟨hq'.1, hq'.2⟩, if_pos ⟨hr.1, hr.2⟩]
  have := same_calls g hq' hr hq h1 (calls o).length
  rw [List.take_of_length_le (by simp [program]), List.take_of_length_le (by simp [program])] at this
  exact this

/-- `fft` ends. -/
theorem C128_fft_ends {o : Opts} (g : Grid o) {W : World} (hW : app o = some W) (eager : Int → Prop) : Completes W eager := by
  unfold app at hW
  rw [if_neg (by simp [g.size])] at hW
  cases hW
  apply completes_of
  rintro pc ⟨u, hu, hul⟩
  have prg : ∀ q, Has o q → (if 0 ≤ q ∧ q < o.size then program o q else []) = program o q := by
    intro q h; exact if_pos h
  replace hu : Has o u := hu
  replace hul : pc u < (if 0 ≤ u ∧ u < o.size then program o u else []).length := hul
  rw [prg u hu] at hul
  obtain ⟨r, r0, r1, _, hmin⟩ := argmin (N := o.size) (fun _ => True) pc ⟨u, hu.1, hu.2, trivial⟩
  have hr : Has o r := ⟨r0, r1⟩
  have hlt : pc r < (calls o).length := by
    have := hmin u hu.1 hu.2 trivial
    simp [program] at hul; omega
  refine ⟨r, hr, ?_⟩
  unfold Ready
  simp only [prg r hr]
  have hc : (program o r)[pc r]? = some (.coll (comm o r (calls o)[pc r].1) (calls o)[pc r].2.1 (calls o)[pc r].2.2) := by
    unfold program
    rw [List.getElem?_map, List.getElem?_eq_getElem hlt]; rfl
  rw [hc]
  show ∀ q, q ∈ comm o r (calls o)[pc r].1 → _
  intro q hq
  obtain ⟨h1, h2⟩ := comm_equiv g hr (calls o)[pc r].1
  have hq' := (h2 q hq).1
  unfold made
  simp only [prg r hr, prg q hq']
  rw [same_calls g hr hq' h1 hq]
  have hle := hmin q hq'.1 hq'.2 trivial
  obtain ⟨c, hcc⟩ := Nat.exists_eq_add_of_le (show pc r + 1 ≤ pc q + 1 by omega)
  rw [hcc, List.take_add (i := pc r + 1)]
  show _ ≤ (List.filterMap _ (_ ++ _)).length
  rw [List.filterMap_append, List.length_append]
  exact Nat.le_add_right _ _

/-- The program runs exactly on grids that have a place for each rank. -/
theorem C128_fft_refuses (o : Opts) : (app o).isSome ↔ o.dx * o.dy * o.dz = o.size := by
  unfold app
  by_cases h : o.dx * o.dy * o.dz = o.size <;> simp [h]

/-- The exchanges of a rank. -/
def exchanges (l : List Instr) : List (List Int × Int) := l.filterMap fun | .coll ms k n => (if k = 1 then some (ms, n) else none) | _ => none

/-- In each iteration a rank exchanges with the line through it in x, then in y, then in z, leaving out what has no data. -/
theorem C128_fft_exchanges {o : Opts} (g : Grid o) {r : Int} (h : Has o r) :
    exchanges (program o r) = (List.replicate o.iters.toNat (
      (if o.mx ≠ 0 then [((List.range o.dx.toNat).map fun (i : Nat) => pe o i (posY o r) (posZ o r), o.mx)] else []) ++
      (if o.my ≠ 0 then [((List.range o.dy.toNat).map fun (i : Nat) => pe o (posX o r) i (posZ o r), o.my)] else []) ++
      (if o.mz ≠ 0 then [((List.range o.dz.toNat).map fun (i : Nat) => pe o (posX o r) (posY o r) i, o.mz)] else []))).flatten := by
  obtain ⟨l1, l2, l3⟩ := C128_fft_lines g h
  rw [← l1, ← l2, ← l3]
  unfold program exchanges calls
  rw [List.filterMap_map]
  simp only [List.filterMap_append]
  have hz : ∀ c : Prop, ∀ _ : Decidable c, List.filterMap ((fun | .coll ms k n => (if k = 1 then some (ms, n) else none) | _ => none : Instr → Option (List Int × Int)) ∘ fun c => Instr.coll (comm o r c.1) c.2.1 c.2.2)
      (if c then [((0 : Fin 4), 2, (0 : Int))] else []) = [] := by
    intro c d
    by_cases hc : c <;> simp [hc]
  rw [hz, hz, hz]
  simp only [List.nil_append, List.filterMap_cons, List.filterMap_nil, Function.comp_def]
  simp only [Nat.zero_ne_one, if_false, List.nil_append, List.append_nil]
  generalize o.iters.toNat = m
  induction m with
  | zero => rfl
  | succ m ih =>
    rw [List.replicate_succ, List.replicate_succ, List.flatten_cons, List.flatten_cons, List.filterMap_append, ih]
    congr 1
    by_cases h1 : o.mx = 0 <;> by_cases h2 : o.my = 0 <;> by_cases h3 : o.mz = 0 <;> simp [h1, h2, h3]

/-- A grid of 2 x 2 x 2 processes, with exchanges in x and z. -/
example : Grid ⟨8, 2, 2, 2, 100, 0, 50, 1⟩ ∧ comm ⟨8, 2, 2, 2, 100, 0, 50, 1⟩ 5 1 = [4, 5] ∧ comm ⟨8, 2, 2, 2, 100, 0, 50, 1⟩ 5 2 = [5, 7] ∧
    program ⟨8, 2, 2, 2, 100, 0, 50, 1⟩ 5 = [.coll [0, 1, 2, 3, 4, 5, 6, 7] 2 0, .coll [0, 1, 2, 3, 4, 5, 6, 7] 2 0, .coll [0, 1, 2, 3, 4, 5, 6, 7] 0 0,
      .coll [4, 5] 1 100, .coll [1, 5] 1 50, .coll [0, 1, 2, 3, 4, 5, 6, 7] 0 0] :=
  ⟨⟨by decide, by decide, by decide, by decide⟩, by decide, by decide, by decide⟩

/-- `offered_load` with one destination per rank: each rank waits for as many messages as are sent to
it. -/
theorem C128_load_partial (dests : List Nat) (iters r : Nat) : awaited dests iters r = sentTo dests dests.length iters r := by
  unfold awaited sentTo
  congr 1
  have aux : ∀ (l : List Nat), l.countP (· == r) = (List.range l.length).countP (fun q => l[q]? == some r) := by
    intro l
    induction l with
    | nil => rfl
    | cons a l ih =>
      rw [List.length_cons, List.range_succ_eq_map, List.countP_cons, List.countP_cons, List.countP_map, ih]
      simp only [List.getElem?_cons_zero, Function.comp_def, List.getElem?_cons_succ]
      congr 1
  exact aux dests

/-- With more destinations than ranks, a rank waits for a message that nobody sends. -/
theorem C128_load_refuted : ∃ (dests : List Nat) (n iters r : Nat), r < n ∧ sentTo dests n iters r < awaited dests iters r := ⟨[1, 0, 0], 2, 1, 0, by decide, by decide⟩

end Verif.Apps.Fft
