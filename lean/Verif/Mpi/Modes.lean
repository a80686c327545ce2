import Verif.Mpi.Xfer
set_option autoImplicit false

/-!
# The modes of sending

`sumi-mpi/sstmac_mpi_macro.h:84-89` and `:193-195`: MPI_Bsend, MPI_Rsend, MPI_Ssend, their variants that do not block and their persistent variants
are all names of the function for the standard mode.
-/

namespace SST.Mpi.Xfer

/-- The modes of MPI-3.1, section 3.4. -/
inductive Mode where
  | standard | buffered | ready | synchronous
deriving DecidableEq, Repr

/-- The protocol for a number of bytes, mpi_queue.cc:178-187, with `max_vshort_msg_size` and `max_eager_msg_size` and without windows for puts; `Mpi/Model` has the types of C. -/
def protFor (vshort eager bytes : Nat) : Prot := if bytes ≤ vshort then .eager0 else if bytes ≤ eager then .eager1 else .rendezvous

/-- A send in some mode, sstmac_mpi_macro.h:84-89: the mode is lost with the name. -/
def sendIn (_ : Mode) (vshort eager f src dst : Nat) (locs : List Nat) (contig : Bool) (count : Nat) : Op :=
  .send f src dst (protFor vshort eager locs.length) locs contig count

end SST.Mpi.Xfer
