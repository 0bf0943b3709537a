import Verif.Vec.Model
import Mathlib.Data.Int.Basic
import Mathlib.Data.Fintype.Card
import Mathlib.Logic.Function.Basic

/-!
# Copies between sub-ranges of vectors

Model of the copies of `hiopVectorPar` that work on a part of a vector: block copies at an offset
and copies that pack the entries selected by a pattern next to each other, or unpack them
(src/LinAlg/hiopVectorPar.cpp). Offsets and counts are integers as in the code. The outcome `none`
is a failed assertion or a write outside an array (undefined behaviour); the assertions are
those of a debug build. One process, so that local and global sizes agree.
-/

namespace Hiop.Range

open Hiop.Vec

variable {K : Type*} {n m p N : ℕ}

/-- `exec_space_.copy(dst + o, src + s, cnt)`: copy of `cnt` entries between two different arrays;
a negative count or a range that leaves one of the arrays is `none`. Code: hiopVectorPar.cpp:225, hiopVectorPar.cpp:235. -/
def blockCopy (dst : RVec K n) (o : ℤ) (src : RVec K m) (s cnt : ℤ) : Option (RVec K n) :=
  if h : 0 ≤ o ∧ 0 ≤ s ∧ 0 ≤ cnt ∧ o + cnt ≤ n ∧ s + cnt ≤ m then
    some fun k =>
      if hk : o ≤ k ∧ (k : ℤ) < o + cnt then src ⟨(s + (k - o)).toNat, by omega⟩ else dst k
  else none

/-- `copyFromStarting(start, v, nv)` from a raw array of `nv` entries, hiopVectorPar.cpp:222-226. -/
def copyFromStartingArr (x : RVec K n) (start : ℤ) (v : RVec K m) : Option (RVec K n) :=
  if start + m ≤ n then blockCopy x start v 0 m else none

/-- `copyFromStarting(start, v)`, hiopVectorPar.cpp:228-236. -/
def copyFromStarting (x : RVec K n) (start : ℤ) (v : RVec K m) : Option (RVec K n) :=
  if start + m ≤ n then blockCopy x start v 0 m else none

/-- `startingAtCopyFromStartingAt(start_dest, v, start_src)`, hiopVectorPar.cpp:256-282. -/
def startingAtCopyFromStartingAt (x : RVec K n) (sd : ℤ) (v : RVec K m) (ss : ℤ) :
    Option (RVec K n) :=
  let howManyDest : ℤ := n - sd
  if ¬ ((0 ≤ sd ∧ sd < n) ∨ n = 0) then none
  else if ¬ ((0 ≤ ss ∧ ss < m) ∨ m = 0 ∨ (m : ℤ) = ss) then none
  else
    let howManySrc : ℤ := m - ss
    if howManyDest = 0 ∨ howManySrc = 0 then some x
    else if ¬ howManyDest ≤ howManySrc then none
    else
      let cnt := if howManyDest > howManySrc then howManySrc else howManyDest
      if 0 ≤ cnt then blockCopy x sd v ss cnt else none

/-- `x.copyToStarting(start, v)`: reads a block of `x` into `v`, hiopVectorPar.cpp:284-292. -/
def copyToStarting (x : RVec K n) (start : ℤ) (v : RVec K m) : Option (RVec K m) :=
  if start + m ≤ n then blockCopy v 0 x start m else none

/-- `x.copyToStarting(dest, start)`: writes `x` into `dest` from `start` on,
hiopVectorPar.cpp:294-313, with one process (`glob_il_ = 0`, `glob_iu_ = n_local_`). -/
def copyToStartingGlobal (x : RVec K n) (dest : RVec K m) (start : ℤ) : Option (RVec K m) :=
  if ¬ start + n ≤ m then none
  else if 0 < n then
    let loc : ℤ := if 0 ≤ start ∧ start < m then start - 0 else if start ≥ m then -1 else 0
    if loc ≥ 0 then
      if (n : ℤ) + loc ≤ m then blockCopy dest loc x 0 n else none
    else some dest
  else some dest

/-- One write `v.data_[k] = a`. Code: as in hiopVectorPar.cpp:327, hiopVectorPar.cpp:452. -/
def store (v : RVec K n) (k : ℤ) (a : K) : Option (RVec K n) :=
  if h : 0 ≤ k ∧ k < n then some (Function.update v ⟨k.toNat, by omega⟩ a) else none

section
variable [One K] [DecidableEq K]

/-- Loop of `copyToStartingAt_w_pattern`, hiopVectorPar.cpp:325-328, state `(find_nnz, v)`. -/
def packLoop (x sel : RVec K p) (start : ℤ) (s : ℤ × RVec K n) : List (Fin p) →
    Option (ℤ × RVec K n)
  | [] => some s
  | i :: is =>
    if sel i = 1 then
      match store s.2 (start + s.1) (x i) with
      | none => none
      | some v => packLoop x sel start (s.1 + 1, v) is
    else packLoop x sel start s is

/-- `x.copyToStartingAt_w_pattern(v, start, select)`, hiopVectorPar.cpp:315-330. The assertion on the
number of entries comes after the loop. -/
def packTo (x : RVec K p) (v : RVec K n) (start : ℤ) (sel : RVec K p) : Option (RVec K n) :=
  match packLoop x sel start (0, v) (List.finRange p) with
  | none => none
  | some (nnz, v) => if nnz + start ≤ n then some v else none

/-- Common beginning of `startingAtCopyToStartingAt` and its version with a pattern: the number of
elements, hiopVectorPar.cpp:411-421 and 438-447. -/
def clampNum (n m : ℕ) (ss sd num : ℤ) : Option ℤ :=
  if num < 0 then some (min (n - ss) (m - sd))
  else if num + ss ≤ n ∧ num + sd ≤ m then some (min (min num (n - ss)) (m - sd))
  else none

/-- `x.startingAtCopyToStartingAt(start_src, dest, start_dest, num)`, hiopVectorPar.cpp:394-426. -/
def startingAtCopyTo (x : RVec K n) (ss : ℤ) (dest : RVec K m) (sd num : ℤ) :
    Option (RVec K m) :=
  if ¬ (0 ≤ ss ∧ ss ≤ n) then none
  else if ss = n ∧ ¬ (num = -1 ∨ num = 0) then none
  else if ¬ (0 ≤ sd ∧ sd ≤ m) then none
  else if sd = m ∧ ¬ (num = -1 ∨ num = 0) then none
  else match clampNum n m ss sd num with
    | none => none
    | some cnt => blockCopy dest sd x ss cnt

/-- Loop of `startingAtCopyToStartingAt_w_pattern`, hiopVectorPar.cpp:450-455, over the indices from
`start_idx_dest` on, state `(find_nnz, dest)`; leaving the loop early is the second branch. A read
outside `x` is `none`. The pattern has the size of `dest`, which the code does not assert. -/
def unpackLoop (x : RVec K n) (ss num : ℤ) (sel : RVec K m) (s : ℤ × RVec K m) :
    List (Fin m) → Option (RVec K m)
  | [] => some s.2
  | i :: is =>
    if s.1 < num then
      if sel i = 1 then
        if h : 0 ≤ ss + s.1 ∧ ss + s.1 < n then
          unpackLoop x ss num sel
            (s.1 + 1, Function.update s.2 i (x ⟨(ss + s.1).toNat, by omega⟩)) is
        else none
      else unpackLoop x ss num sel s is
    else some s.2

/-- `x.startingAtCopyToStartingAt_w_pattern(start_src, dest, start_dest, select, num)`,
hiopVectorPar.cpp:428-456. -/
def unpackTo (x : RVec K n) (ss : ℤ) (dest : RVec K m) (sd : ℤ) (sel : RVec K m) (num : ℤ) :
    Option (RVec K m) :=
  if ¬ (0 ≤ ss ∧ ss ≤ n) then none
  else if ¬ (0 ≤ sd ∧ sd ≤ m) then none
  else match clampNum n m ss sd num with
    | none => none
    | some cnt =>
      unpackLoop x ss cnt sel (0, dest) ((List.finRange m).drop sd.toNat)

end

/-- One read `arr[k]`. Code: as in hiopVectorPar.cpp:382, hiopVectorPar.cpp:385. -/
def load (v : RVec K n) (k : ℤ) : Option K :=
  if h : 0 ≤ k ∧ k < n then some (v ⟨k.toNat, by omega⟩) else none

/-- Loop `data_[i] = v.data_[index_arr[i]]` of `copy_from_indexes`, hiopVectorPar.cpp:203-206. -/
def gatherLoop (x : RVec K n) (map : Fin p → ℤ) (c : RVec K p) : List (Fin p) → Option (RVec K p)
  | [] => some c
  | i :: is =>
    match load x (map i) with
    | none => none
    | some a => gatherLoop x map (Function.update c i a) is

/-- `copy_from_indexes(v, index_in_src)`, hiopVectorPar.cpp:194-207: the assertion only looks for
indexes that are too large; a negative one is a read outside the array. -/
def copyFromIndexes (x : RVec K p) (v : RVec K n) (idx : Fin p → ℤ) : Option (RVec K p) :=
  gatherLoop v idx x (List.finRange p)

/-- `is_equal`, hiopVectorPar.cpp:1287-1307, one process. -/
def isEqual [DecidableEq K] (x : RVec K n) (v : RVec K m) : Bool :=
  if h : n = m then (List.finRange n).all fun i => decide (x i = v (i.cast h)) else false

end Hiop.Range
