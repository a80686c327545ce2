set_option autoImplicit false

/-!
# The Mersenne twister

`sstmac/common/mersenne_twister.cc`.  The vector is a function of its 312 indices; `at` never throws in the functions of this file, apart from
`vec_reseed` with no seeds.
-/

namespace Verif.Util.Mersenne

/-- Words. -/
abbrev W := BitVec 64

/-- `state_vector_length_` and `mask_length_`, mersenne_twister.cc:56-57. -/
def N : Nat := 312
@[inherit_doc N] def M : Nat := 156

/-- The state: `mt_` and `mti_`, mersenne_twister.h. -/
structure St where
  mt : Nat → W
  mti : Nat

/-- One element of the vector is set. -/
def put (f : Nat → W) (i : Nat) (v : W) : Nat → W := fun j => if j = i then v else f j

/-- The loop of `reseed`, mersenne_twister.cc:66-69. -/
def fill (f : Nat → W) (i : Nat) : Nat → (Nat → W)
  | 0 => f
  | c + 1 => fill (put f i (6364136223846793005#64 * (f (i - 1) ^^^ (f (i - 1) >>> 62)) + BitVec.ofNat 64 i)) (i + 1) c

/-- `mersenne_twister::reseed`, mersenne_twister.cc:62-70. -/
def reseed (seed : W) : St := ⟨fill (put (fun _ => 0#64) 0 seed) 1 (N - 1), N⟩

/-- `UM`, `LM` and `MATRIX_A`, mersenne_twister.cc:49-51, with the two lines for one word, :106-107. -/
def twist (a b : W) : W :=
  let x := (a &&& 0xFFFFFFFF80000000#64) ||| (b &&& 0x7FFFFFFF#64)
  (x >>> 1) ^^^ (if (x &&& 1#64) = 0#64 then 0#64 else 0xB5026F5AA96619E9#64)

/-- The first loop, mersenne_twister.cc:105-108, from index `i`. -/
def loop1 (f : Nat → W) (i : Nat) : Nat → (Nat → W)
  | 0 => f
  | c + 1 => loop1 (put f i (f (i + M) ^^^ twist (f i) (f (i + 1)))) (i + 1) c

/-- The second loop, mersenne_twister.cc:109-113. -/
def loop2 (f : Nat → W) (i : Nat) : Nat → (Nat → W)
  | 0 => f
  | c + 1 => loop2 (put f i (f (i + M - N) ^^^ twist (f i) (f (i + 1)))) (i + 1) c

/-- All words are replaced in place, mersenne_twister.cc:104-118. -/
def regen (f : Nat → W) : Nat → W :=
  let f := loop1 f 0 (N - M)
  let f := loop2 f (N - M) (M - 1)
  put f (N - 1) (f (M - 1) ^^^ twist (f (N - 1)) (f 0))

/-- The scrambling of a word, mersenne_twister.cc:122-125, as an unsigned 32 bit number, :127. -/
def temper (x : W) : BitVec 32 :=
  let x := x ^^^ ((x >>> 29) &&& 0x5555555555555555#64)
  let x := x ^^^ ((x <<< 17) &&& 0x71D67FFFEDA60000#64)
  let x := x ^^^ ((x <<< 37) &&& 0xFFF7EEE000000000#64)
  (x ^^^ (x >>> 43)).setWidth 32

/-- `mersenne_twister::value`, mersenne_twister.cc:98-128. -/
def value (s : St) : BitVec 32 × St :=
  let s := if N ≤ s.mti then ⟨regen s.mt, 0⟩ else s
  (temper (s.mt s.mti), { s with mti := s.mti + 1 })

/-- The first values. -/
def take : Nat → St → List (BitVec 32)
  | 0, _ => []
  | n + 1, s => (value s).1 :: take n (value s).2

/-- The first loop of `vec_reseed`, mersenne_twister.cc:138-151; positions `i` and `j`. -/
def mix1 (seeds : List (BitVec 32)) (f : Nat → W) (i j : Nat) : Nat → (Nat → W) × Nat
  | 0 => (f, i)
  | c + 1 =>
    let f := put f i ((f i ^^^ ((f (i - 1) ^^^ (f (i - 1) >>> 62)) * 3935559000370003845#64)) + (seeds.getD j 0#32).setWidth 64 + BitVec.ofNat 64 j)
    let j := if seeds.length ≤ j + 1 then 0 else j + 1
    if N ≤ i + 1 then mix1 seeds (put f 0 (f (N - 1))) 1 j c else mix1 seeds f (i + 1) j c

/-- The second loop, mersenne_twister.cc:152-161. -/
def mix2 (f : Nat → W) (i : Nat) : Nat → (Nat → W)
  | 0 => f
  | c + 1 =>
    let f := put f i ((f i ^^^ ((f (i - 1) ^^^ (f (i - 1) >>> 62)) * 2862933555777941757#64)) - BitVec.ofNat 64 i)
    if N ≤ i + 1 then mix2 (put f 0 (f (N - 1))) 1 c else mix2 f (i + 1) c

/-- `mersenne_twister::vec_reseed`, mersenne_twister.cc:133-164; `none` is the exception from `seeds.at(0)`. -/
def vecReseed (seeds : List (BitVec 32)) : Option St :=
  if seeds = [] then none
  else
    let s := reseed 19650218#64
    let r := mix1 seeds s.mt 1 0 (max N seeds.length)
    some ⟨put (mix2 r.1 r.2 (N - 1)) 0 (1#64 <<< 63), s.mti⟩

end Verif.Util.Mersenne
