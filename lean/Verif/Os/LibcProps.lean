import Verif.Os.Libc
/-
C145: the calls of the C library that the simulator replaces do what C says to the program's data,
never access buffers without data, and charge their time.
-/
set_option autoImplicit false
namespace SST.Os.Libc

/-! ### Specification -/

/-- A buffer with data: none of its bytes is at address 0 or in the reserved range. -/
def Data (base p n : Nat) : Prop := 0 < p ∧ (p + n ≤ base ∧ p < base ∨ base + 2 ^ 30 ≤ p)

/-- A buffer without data: the null pointer, or inside the reserved range. -/
def NoData (base p n : Nat) : Prop := p = 0 ∨ base ≤ p ∧ p < base + 2 ^ 30 ∧ p + n ≤ base + 2 ^ 30

/-- A range of addresses that can be accessed. -/
def Accessible (base : Nat) (r : Nat × Nat) : Prop :=
  ∀ a, r.1 ≤ a → a < r.1 + r.2 → a ≠ 0 ∧ ¬ (base ≤ a ∧ a < base + 2 ^ 30)

/-- C: `n` bytes from `p` have the value, all others are as before. -/
def Filled (p v n : Nat) (mem mem' : Nat → Nat) : Prop :=
  (∀ i, i < n → mem' (p + i) = v % 256) ∧ ∀ a, a < p ∨ p + n ≤ a → mem' a = mem a

/-- C: `n` bytes from `d` are those that were at `s`, all others are as before. -/
def Copied (d s n : Nat) (mem mem' : Nat → Nat) : Prop :=
  (∀ i, i < n → mem' (d + i) = mem (s + i)) ∧ ∀ a, a < d ∨ d + n ≤ a → mem' a = mem a

/-! ### Memory -/

theorem isReal_data {base p n : Nat} (h : Data base p n) : isReal base p = true := by
  unfold Data at h
  unfold isReal range
  simp only [Bool.and_eq_true, decide_eq_true_eq, Bool.or_eq_true]
  omega

theorem isReal_noData {base p n : Nat} (h : NoData base p n) : isReal base p = false := by
  unfold NoData at h
  unfold isReal range
  rw [Bool.eq_false_iff]
  simp only [ne_eq, Bool.and_eq_true, decide_eq_true_eq, Bool.or_eq_true]
  omega

theorem Data.accessible {base p n : Nat} (h : Data base p n) : Accessible base (p, n) := by
  intro a h1 h2
  unfold Data at h
  simp only at h1 h2
  omega

/-- C145 (partial: buffers that are wholly data or wholly not).  `memset` fills buffers with data as
C says, leaves buffers without data alone, never accesses the reserved range, and returns its
argument. -/
theorem C145_memset_partial (base p v n : Nat) (mem : Nat → Nat) (h : Data base p n ∨ NoData base p n) :
    let r := memset base p v n mem
    r.ret = p ∧ (∀ t ∈ r.touched, Accessible base t)
      ∧ (Data base p n → Filled p v n mem r.mem) ∧ (NoData base p n → r.mem = mem ∧ r.touched = []) := by
  refine ⟨rfl, ?_, ?_, ?_⟩
  · intro t ht
    rcases h with h | h
    · simp only [memset, isReal_data h, if_true, List.mem_singleton] at ht
      subst ht; exact h.accessible
    · simp only [memset, isReal_noData h, Bool.false_eq_true, if_false] at ht
      cases ht
  · intro hd
    simp only [memset, isReal_data hd, if_true]
    refine ⟨fun i hi => if_pos ⟨by omega, by omega⟩, fun a ha => if_neg (by omega)⟩
  · intro hn
    simp [memset, isReal_noData hn]

/-- C145 (partial: buffers that are wholly data or wholly not).  `memcpy` copies between buffers with
data that do not overlap as C says, does nothing if one of them has no data, never accesses the reserved range,
and returns its first argument. -/
theorem C145_memcpy_partial (base d s n : Nat) (mem : Nat → Nat) (hd : Data base d n ∨ NoData base d n) (hs : Data base s n ∨ NoData base s n) :
    let r := memcpy base d s n mem
    r.ret = d ∧ (∀ t ∈ r.touched, Accessible base t)
      ∧ (Data base d n → Data base s n → (d + n ≤ s ∨ s + n ≤ d) → Copied d s n mem r.mem)
      ∧ (NoData base d n ∨ NoData base s n → r.mem = mem ∧ r.touched = []) := by
  refine ⟨rfl, ?_, ?_, ?_⟩
  · intro t ht
    rcases hd with hd | hd
    · rcases hs with hs | hs
      · simp only [memcpy, isReal_data hd, isReal_data hs, Bool.and_self, if_true, List.mem_cons, List.not_mem_nil, or_false] at ht
        rcases ht with rfl | rfl
        · exact hd.accessible
        · exact hs.accessible
      · simp only [memcpy, isReal_noData hs, Bool.and_false, Bool.false_eq_true, if_false] at ht
        cases ht
    · simp only [memcpy, isReal_noData hd, Bool.false_and, Bool.false_eq_true, if_false] at ht
      cases ht
  · intro h1 h2 _
    simp only [memcpy, isReal_data h1, isReal_data h2, Bool.and_self, if_true]
    refine ⟨fun i hi => ?_, fun a ha => if_neg (by omega)⟩
    have h3 : d + i - d = i := by omega
    have h4 : d ≤ d + i ∧ d + i < d + n := by omega
    simp only [h3, h4, and_self, if_true]
  · intro h
    rcases h with h | h
    · simp [memcpy, isReal_noData h]
    · simp [memcpy, isReal_noData h]

example : Data (2 ^ 40) 4096 200 ∧ Data (2 ^ 40) 8192 200 ∧ NoData (2 ^ 40) (2 ^ 40 + 64) 200 ∧ NoData (2 ^ 40) 0 200
    ∧ (memcpy (2 ^ 40) 4096 8192 200 (fun a => a % 256)).mem 4100 = 4
    ∧ (memset (2 ^ 40) (2 ^ 40 + 64) 7 200 (fun a => a % 256)).charge = some (.write 200) := by
  refine ⟨?_, ?_, ?_, ?_, by decide, by decide⟩
  · simp only [Data]; omega
  · simp only [Data]; omega
  · simp only [NoData]; omega
  · exact Or.inl rfl

/-- C145 refuted for large buffers without data: the receive buffer without data has 2^29 bytes.
Element addresses from there on are taken for data and are accessed. -/
theorem C145_large_refuted (base off v n : Nat) (mem : Nat → Nat) (hoff : 2 ^ 29 ≤ off) :
    (memset base (recvBase base + off) v n mem).touched = [(recvBase base + off, n)] := by
  have : isReal base (recvBase base + off) = true := by
    unfold isReal recvBase range
    simp only [Bool.and_eq_true, decide_eq_true_eq, Bool.or_eq_true]
    omega
  simp only [memset, this, if_true]

/-- Below this size it is left alone. -/
theorem C145_small (base off v n : Nat) (mem : Nat → Nat) (hoff : off < 2 ^ 29) :
    (memset base (recvBase base + off) v n mem).touched = [] := by
  have : isReal base (recvBase base + off) = false := by
    unfold isReal recvBase range
    rw [Bool.eq_false_iff]
    simp only [ne_eq, Bool.and_eq_true, decide_eq_true_eq, Bool.or_eq_true]
    omega
  simp only [memset, this, Bool.false_eq_true, if_false]

/-- C145 refuted for the null pointer: an address at an offset from the null pointer is taken for
data and is accessed. -/
theorem C145_offset_refuted (base off v n : Nat) (mem : Nat → Nat) (h0 : 0 < off) (hb : off < base) :
    (memset base 0 v n mem).touched = [] ∧ (memset base (0 + off) v n mem).touched = [(off, n)] := by
  have h1 : isReal base 0 = false := by simp [isReal]
  have h2 : isReal base (0 + off) = true := by
    unfold isReal
    simp only [Bool.and_eq_true, decide_eq_true_eq, Bool.or_eq_true]
    omega
  rw [Nat.zero_add] at h2
  simp [memset, h1, h2]

/-! ### Charges -/

/-- C145 (partial: not 128 bytes).  Filling and copying are charged alike: for their bytes if more
than 128, with or without data, and not at all if fewer. -/
theorem C145_charge_partial (base p q v n : Nat) (mem : Nat → Nat) :
    (128 < n → (memset base p v n mem).charge = some (.write n) ∧ (memcpy base p q n mem).charge = some (.copy n))
    ∧ (n < 128 → (memset base p v n mem).charge = none ∧ (memcpy base p q n mem).charge = none) := by
  refine ⟨fun h => ⟨if_pos h, if_pos (by omega)⟩, fun h => ⟨if_neg (by omega), if_neg (by omega)⟩⟩

/-- C145 refuted: copying 128 bytes is charged, filling 128 bytes is not. -/
theorem C145_charge_refuted (base p q v : Nat) (mem : Nat → Nat) :
    (memset base p v 128 mem).charge = none ∧ (memcpy base p q 128 mem).charge = some (.copy 128) :=
  ⟨rfl, rfl⟩

/-! ### The name of the host -/

/-- C145 (partial: the name does not have the length of the array).  A name that fits is written with
its end into the array; for one that does not, an error is returned and nothing is written. -/
theorem C145_hostname_partial (host : List Nat) (len : Nat) (h : host.length ≠ len) :
    let r := gethostname host len
    r.2.length ≤ len ∧ (host.length + 1 ≤ len → r = (0, host ++ [0])) ∧ (len < host.length + 1 → r = (-1, [])) := by
  simp only [gethostname]
  refine ⟨?_, fun h1 => if_neg (by omega), fun h1 => if_pos (by omega)⟩
  split
  · simp
  · simp only [List.length_append, List.length_cons, List.length_nil]; omega

example : gethostname [110, 49] 8 = (0, [110, 49, 0]) ∧ gethostname [110, 49, 50] 2 = (-1, []) := by decide

/-- C145 refuted: for a name of the length of the array success is returned, and the end is written
behind the array. -/
theorem C145_hostname_refuted (host : List Nat) :
    (gethostname host host.length).1 = 0 ∧ (gethostname host host.length).2.length = host.length + 1 := by
  simp [gethostname]

/-! ### Times from parameters -/

/-- The clock after a history of calls. -/
def clock (param : Nat → Nat → Nat) (l : List Advance) : Clock := l.foldl (advance param) {}

theorem clock_inv (param : Nat → Nat → Nat) : ∀ r : List Advance,
    (∀ x ∈ r, ∀ y ∈ r, x.aid = y.aid → x.ptr = y.ptr → x.name = y.name) →
    (clock param r.reverse).charged = r.reverse.map (fun x => param x.aid x.name)
    ∧ (∀ a p v, (clock param r.reverse).cache a p = some v → ∃ x ∈ r, x.aid = a ∧ x.ptr = p ∧ v = param x.aid x.name) := by
  intro r
  induction r with
  | nil => intro _; exact ⟨rfl, by intro a p v h; cases h⟩
  | cons x r ih =>
    intro h
    have hi := ih (fun y hy z hz => h y (List.mem_cons_of_mem _ hy) z (List.mem_cons_of_mem _ hz))
    have hs : clock param (x :: r).reverse = advance param (clock param r.reverse) x := by
      simp [clock, List.foldl_append]
    rw [hs, List.reverse_cons, List.map_append]
    unfold advance
    cases hc : (clock param r.reverse).cache x.aid x.ptr with
    | some v =>
      obtain ⟨y, hy, h1, h2, h3⟩ := hi.2 _ _ _ hc
      have hn := h x List.mem_cons_self y (List.mem_cons_of_mem _ hy) h1.symm h2.symm
      refine ⟨?_, fun a p w hw => ?_⟩
      · simp only [hi.1, List.map_cons, List.map_nil]
        rw [h3, h1, hn]
      · obtain ⟨z, hz, hh⟩ := hi.2 a p w hw
        exact ⟨z, List.mem_cons_of_mem _ hz, hh⟩
    | none =>
      refine ⟨by simp only [hi.1, List.map_cons, List.map_nil], fun a p w hw => ?_⟩
      simp only at hw
      split at hw
      · next hap =>
        refine ⟨x, List.mem_cons_self, hap.1.symm, hap.2.symm, ?_⟩
        exact (Option.some.inj hw).symm
      · obtain ⟨z, hz, hh⟩ := hi.2 a p w hw
        exact ⟨z, List.mem_cons_of_mem _ hz, hh⟩

/-- C145 (partial: names stay where they are).  If an address always holds the same name for one
application, every call charges the value that its application gives to the parameter. -/
theorem C145_advance_partial (param : Nat → Nat → Nat) (l : List Advance)
    (h : ∀ x ∈ l, ∀ y ∈ l, x.aid = y.aid → x.ptr = y.ptr → x.name = y.name) :
    (clock param l).charged = l.map (fun x => param x.aid x.name) := by
  have := (clock_inv param l.reverse (fun x hx y hy => h x (List.mem_reverse.mp hx) y (List.mem_reverse.mp hy))).1
  rwa [List.reverse_reverse] at this

/-- Two applications use one address, with different values. -/
example : (clock (fun a n => 100 * a + n) [⟨1, 64, 5⟩, ⟨2, 64, 6⟩, ⟨1, 64, 5⟩]).charged = [105, 206, 105]
    ∧ ∀ x ∈ [(⟨1, 64, 5⟩ : Advance), ⟨2, 64, 6⟩, ⟨1, 64, 5⟩], ∀ y ∈ [(⟨1, 64, 5⟩ : Advance), ⟨2, 64, 6⟩, ⟨1, 64, 5⟩],
      x.aid = y.aid → x.ptr = y.ptr → x.name = y.name := by decide

/-- C145 refuted: a program that builds two names in one array is charged twice for the first. -/
theorem C145_advance_refuted (param : Nat → Nat → Nat) (a p x y : Nat) :
    (clock param [⟨a, p, x⟩, ⟨a, p, y⟩]).charged = [param a x, param a x] := by
  simp [clock, advance]

/-- C145: without a default the value of a parameter is returned as it is. -/
theorem C145_param (v : Int) : unitParam (some v) none = some v := rfl

/-- C145 refuted: with a default, a value that is not whole is cut off, whether it was given or is the
default. -/
theorem C145_param_refuted (v d : Int) (hv : v % 1000 ≠ 0) (hd : d % 1000 ≠ 0) :
    unitParam (some v) (some d) ≠ some v ∧ unitParam none (some d) ≠ some d := by
  simp only [unitParam, Option.getD_some, Option.getD_none]
  constructor
  · intro h
    have h := Option.some.inj h
    apply hv
    rw [← h]; exact Int.mul_emod_left _ _
  · intro h
    have h := Option.some.inj h
    apply hd
    rw [← h]; exact Int.mul_emod_left _ _

example : unitParam (some 2500) (some 1000) = some 2000 ∧ unitParam none (some 500) = some 0 := by decide

end SST.Os.Libc
