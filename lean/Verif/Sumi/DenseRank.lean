/-
Dense numbering of the ranks that are left after failures (sumi/dense_rank_map.cc, dense_rank_map.h).

The failed ranks are a list in ascending order (`std::set`, or sorted after translation to communicator
ranks, dense_rank_map.cc:83-94). Ranks are `int`s, taken as integers.
-/
set_option autoImplicit false
namespace SST.Sumi

/-- `DenseRankMap::linearFindRank`, dense_rank_map.cc:97-106, from index `i` on. -/
def linearFind (r : Int) : Nat → List Int → Int
  | i, [] => r - i
  | i, f :: fs => if r < f then r - i else linearFind r (i + 1) fs

/-- `DenseRankMap::sparseRank`, dense_rank_map.cc:108-120. -/
def sparseRank : List Int → Int → Int
  | [], r => r
  | f :: fs, r => if f ≤ r then sparseRank fs (r + 1) else r

/-- `DenseRankMap::treeFindRank`, dense_rank_map.cc:135-173; `none`: the exception for a failed rank. -/
def treeFind (r : Int) (offset : Nat) (fs : List Int) : Option Int :=
  match fs with
  | [] => none
  | [f] => if f < r then some (r - (offset + 1 : Nat)) else if r < f then some (r - offset) else none
  | f :: g :: rest =>
    let fs := f :: g :: rest
    let mid := fs.length / 2
    match fs[mid]? with
    | none => none
    | some m =>
      if r < m then treeFind r offset (fs.take mid)
      else if m < r then treeFind r (offset + mid) (fs.drop mid)
      else none
termination_by fs.length
decreasing_by
  all_goals simp only [List.length_take, List.length_drop, List.length_cons]; omega

/-- `DenseRankMap::denseRank`, dense_rank_map.cc:122-133, with `tree_cutoff` (dense_rank_map.h:77). -/
def denseRank (failed : List Int) (r : Int) : Option Int :=
  if failed.length = 0 then some r
  else if failed.length ≤ 4 then some (linearFind r 0 failed)
  else treeFind r 0 failed

end SST.Sumi
