import Verif.Sparse.Model
import Verif.DenseMat.Model

/-!
# Mixed dense-sparse matrices

`hiopMatrixMDS` (a sparse block of columns followed by a dense block of columns) and
`hiopMatrixSymBlockDiagMDS` (a sparse symmetric block and a dense block on the diagonal) of
/repo/src/LinAlg/hiopMatrixMDS.hpp and hiopMatrixMDS.cpp. The sparse part is the triplet class of
`Verif/Sparse/Model.lean`, the dense part the row-major class of `Verif/DenseMat/Model.lean`. Failed
assertions, exceptions and accesses outside an array give `none`.
-/

namespace Hiop.Mds

open Hiop.Vec Hiop.Sparse Hiop.DenseMat

variable {K : Type*} [Field K] [LinearOrder K]

/-- The two parts: `m` by `ns` triplets and a dense matrix, hiopMatrixMDS.hpp:256-257, 491-492. -/
structure Mat (K : Type*) where
  m : ℕ
  ns : ℕ
  es : List (Ent K)
  de : DMat K

/-- A routine working on `cnt` numbers from the pointer `a + off`. No counterpart in the code: used only to state and run the model. -/
def onPart (a : Arr K) (off cnt : ℕ) (f : Arr K → Option (Arr K)) : Option (Arr K) :=
  if off + cnt ≤ a.size then
    (f ⟨cnt, fun k => a.get (off + k)⟩).map fun b =>
      ⟨a.size, fun k => if off ≤ k ∧ k < off + cnt then b.get (k - off) else a.get k⟩
  else none

/-- `cnt` numbers read from the pointer `a + off`. No counterpart in the code: used only to state and run the model. -/
def part (a : Arr K) (off cnt : ℕ) : Option (Arr K) :=
  if off + cnt ≤ a.size then some ⟨cnt, fun k => a.get (off + k)⟩ else none

/-- The first `p` numbers as a vector. No counterpart in the code: used only to state and run the model. -/
def toVec (p : ℕ) (a : Arr K) : RVec K p := fun i => a.get i

/-- A vector as an array. No counterpart in the code: used only to state and run the model. -/
def ofVec {p : ℕ} (v : RVec K p) : Arr K := ⟨p, fun k => if h : k < p then v ⟨k, h⟩ else 0⟩

/-- A routine changing the entries of a dense matrix in place. No counterpart in the code: used only to state and run the model. -/
def onDense (W : DMat K) (f : (ℕ → ℕ → K) → Option (ℕ → ℕ → K)) : Option (DMat K) :=
  (f fun i j => W.data (i * W.n + j)).map fun w =>
    W.put ⟨W.arr.size, fun q => if q < W.m * W.n then w (q / W.n) (q % W.n) else W.data q⟩

/-! ## Rectangular matrices -/

/-- `timesVec`, hiopMatrixMDS.hpp:68-74. -/
def timesVec (A : Mat K) (beta : K) (y : Arr K) (alpha : K) (x : Arr K) : Option (Arr K) :=
  if x.size = A.ns + A.de.n then
    (part x 0 A.ns).bind fun xs =>
    (onPart y 0 A.m fun y =>
      (Sparse.timesVec A.es beta (toVec A.m y) alpha (toVec A.ns xs)).map ofVec).bind fun y =>
    (part x A.ns A.de.n).bind fun xd =>
    onPart y 0 A.de.m fun y => DenseMat.timesVec A.de 1 y alpha xd
  else none

/-- `transTimesVec`, hiopMatrixMDS.hpp:75-81. -/
def transTimesVec (A : Mat K) (beta : K) (y : Arr K) (alpha : K) (x : Arr K) : Option (Arr K) :=
  if y.size = A.ns + A.de.n then
    (part x 0 A.m).bind fun xs =>
    (onPart y 0 A.ns fun y =>
      (Sparse.transTimesVec A.es beta (toVec A.ns y) alpha (toVec A.m xs)).map ofVec).bind fun y =>
    (part x 0 A.de.m).bind fun xd =>
    onPart y A.ns A.de.n fun y => DenseMat.transTimesVec A.de beta y alpha xd
  else none

/-- `timesMatTrans`, hiopMatrixMDS.hpp:94-100: `alpha` is not used. The sparse product,
hiopMatrixSparseTriplet.cpp:144-200, asserts the sizes of `W` and the common number of columns. -/
def timesMatTrans (A : Mat K) (beta : K) (W : DMat K) (_alpha : K) (X : Mat K) : Option (DMat K) :=
  (DenseMat.timesMatTrans A.de beta W 1 X.de).bind fun W =>
    if A.ns = X.ns ∧ A.m = W.m ∧ X.m = W.n then
      onDense W fun w => Sparse.timesMatTrans A.m X.m A.es X.es 1 w 1
    else none

/-- `addMatrix` of the triplet matrix is an assertion failure, hiopMatrixSparseTriplet.cpp:251-254. -/
def spAddMatrix (_es : List (Ent K)) (_alpha : K) (_xs : List (Ent K)) : Option (List (Ent K)) := none

/-- `addMatrix`, hiopMatrixMDS.hpp:128-136, 368-373. -/
def addMatrix (A : Mat K) (alpha : K) (X : Mat K) : Option (Mat K) :=
  (spAddMatrix A.es alpha X.es).bind fun es =>
    (DenseMat.addMatrix A.de alpha X.de).map fun d => { A with es := es, de := d }

/-- `copyFrom` of the triplet matrix is an assertion failure, hiopMatrixSparseTriplet.cpp:348-351. -/
def spCopyFrom (_es _xs : List (Ent K)) : Option (List (Ent K)) := none

/-- `copyFrom`, hiopMatrixMDS.hpp:55-59, 297-301. -/
def copyFrom (A B : Mat K) : Option (Mat K) :=
  (spCopyFrom A.es B.es).bind fun es =>
    (DenseMat.copyFrom A.de B.de).map fun d => { A with es := es, de := d }

/-- `setToConstant`, hiopMatrixMDS.hpp:45-49, and (with `c = 0`) `setToZero`, 40-44. -/
def setToConstant (A : Mat K) (c : K) : Option (Mat K) :=
  (DenseMat.setToConstant A.de c).map fun d =>
    { A with es := A.es.map fun e => { e with v := c }, de := d }

/-- `copyRowsFrom` of the triplet matrix with its assertions on the sizes,
hiopMatrixSparseTriplet.cpp:562-606. -/
def spCopyRowsFrom (p q : ℕ) (es : List (Ent K)) (p' q' : ℕ) (src : List (Ent K)) (idx : ℕ → ℕ) (n : ℕ) :
    Option (List (Ent K)) :=
  if p = n ∧ es.length ≤ src.length ∧ q = q' ∧ n ≤ p' then
    (Sparse.copyRowsFrom es.length (fun k => es.getD k ⟨0, 0, 0⟩) src idx n).map fun st =>
      toList st es.length
  else none

/-- `copyRowsFrom`, hiopMatrixMDS.hpp:61-66. -/
def copyRowsFrom (A B : Mat K) (idx : ℕ → ℕ) (n : ℕ) : Option (Mat K) :=
  (spCopyRowsFrom A.m A.ns A.es B.m B.ns B.es idx n).bind fun es =>
    (DenseMat.copyRowsIdx A.de B.de idx n).map fun d => { A with es := es, de := d }

/-- `transAddToSymDenseMatrixUpperTriangle`, hiopMatrixMDS.hpp:146-150, with the size assertions of the
sparse part, hiopMatrixSparseTriplet.cpp:262-264. -/
def transAddTo (A : Mat K) (r0 c0 : ℕ) (alpha : K) (W : DMat K) : Option (DMat K) :=
  if r0 + A.ns ≤ W.m ∧ c0 + A.m ≤ W.n ∧ W.n = W.m then
    (onDense W fun w => transAddUpper W.m A.es r0 c0 alpha w).bind fun W =>
      DenseMat.transAddTo A.de (r0 + A.ns) c0 alpha W
  else none

/-- `max_abs_value` of the triplets, hiopMatrixSparseTriplet.cpp:278-283. -/
def spMaxAbs (es : List (Ent K)) : Option K :=
  dlange 1 es.length ⟨es.length, fun k => (es.getD k ⟨0, 0, 0⟩).v⟩ 0 1

/-- `max_abs_value`, hiopMatrixMDS.hpp:168-171, 405-408. -/
def maxAbs (A : Mat K) : Option K :=
  (spMaxAbs A.es).bind fun a => (DenseMat.maxAbs A.de).map fun b => max a b

/-- `row_max_abs_value`, hiopMatrixMDS.hpp:173-183, 410-420; the sparse routine asserts the size,
hiopMatrixSparseTriplet.cpp:287. -/
def rowMaxAbs (A : Mat K) (v : Arr K) : Option (Arr K) :=
  if v.size = A.m then
    (DenseMat.rowMaxAbs A.de v).map fun d => ⟨v.size, fun i => max (Sparse.rowMaxAbs A.es i) (d.get i)⟩
  else none

/-- `scale_row`, hiopMatrixMDS.hpp:185-189, 422-426; the sparse routine asserts the size,
hiopMatrixSparseTriplet.cpp:305. -/
def scaleRow (A : Mat K) (v : Arr K) (inv : Bool) : Option (Mat K) :=
  if v.size = A.m then
    (DenseMat.scaleRow A.de v inv).map fun d =>
      { A with es := Sparse.scaleRow A.es v.get inv, de := d }
  else none

/-- `new_copy`, hiopMatrixMDS.hpp:211-219, 448-456. -/
def newCopy (A : Mat K) (junk : ℕ → K) : Option (Mat K) :=
  (DenseMat.newCopy A.de junk).map fun d => { A with de := d }

/-- `set_Jac_FR`, hiopMatrixMDS.cpp:8-26: `A` is the Jacobian of the feasibility problem, whose triplets are
all overwritten; the copy to the user's array is left out. -/
def setJacFR (A Jc Jd : Mat K) : Option (Mat K) :=
  if Jc.ns = Jd.ns then
    (Sparse.setJacFR Jc.ns Jc.m Jd.m Jc.es Jd.es A.es.length).bind fun l =>
      if Jc.de.n = A.de.n ∧ Jd.de.n = A.de.n then
        (DenseMat.copyRows A.de Jc.de Jc.de.m 0).bind fun d =>
          (DenseMat.copyRows d Jd.de Jd.de.m Jc.de.m).map fun d => { A with es := l, de := d }
      else none
  else none

/-! ## Symmetric block-diagonal matrices

The fields `m` and `ns` are both the size of the sparse block. -/

/-- `timesVec` and `transTimesVec`, hiopMatrixMDS.hpp:310-323. -/
def symTimesVec (A : Mat K) (beta : K) (y : Arr K) (alpha : K) (x : Arr K) : Option (Arr K) :=
  if x.size = A.ns + A.de.n ∧ y.size = A.ns + A.de.n then
    (part x 0 A.ns).bind fun xs =>
    (onPart y 0 A.ns fun y =>
      (Sparse.symTimesVec A.es beta (toVec A.ns y) alpha (toVec A.ns xs)).map ofVec).bind fun y =>
    (part x A.ns A.de.n).bind fun xd =>
    onPart y A.ns A.de.m fun y => DenseMat.timesVec A.de beta y alpha xd
  else none

/-- `addUpperTriangleToSymDenseMatrixUpperTriangle`, hiopMatrixMDS.hpp:397-403, with the size assertions of
the sparse part, hiopMatrixSparseTriplet.cpp:983-985. -/
def symAddUpper (A : Mat K) (d0 : ℕ) (alpha : K) (W : DMat K) : Option (DMat K) :=
  if A.m = A.ns ∧ d0 + A.ns ≤ W.m ∧ d0 + A.ns ≤ W.n ∧ W.n = W.m then
    (onDense W fun w => Sparse.symAddUpper W.m A.es d0 alpha w).bind fun W =>
      DenseMat.addUpperTo A.de (d0 + A.m) alpha W
  else none

/-- The objects behind a `hiopMatrix&`. Code: hiopMatrixMDS.hpp:63. -/
inductive Obj (K : Type*) where
  | triplet (p q : ℕ) (es : List (Ent K))
  | dense (d : DMat K)
  | mds (A : Mat K)

/-- `copyRowsFrom(hiopMatrix&, ...)` of a triplet matrix: the cast throws for other classes,
hiopMatrixSparseTriplet.cpp:566. -/
def tripletCopyRows (p q : ℕ) (es : List (Ent K)) (src : Obj K) (idx : ℕ → ℕ) (n : ℕ) :
    Option (List (Ent K)) :=
  match src with
  | .triplet p' q' es' => spCopyRowsFrom p q es p' q' es' idx n
  | _ => none

/-- `copyRowsFrom(hiopMatrix&, ...)` of a dense matrix, hiopMatrixDenseRowMajor.cpp:185. -/
def denseCopyRows (d : DMat K) (src : Obj K) (idx : ℕ → ℕ) (n : ℕ) : Option (DMat K) :=
  match src with
  | .dense d' => DenseMat.copyRowsIdx d d' idx n
  | _ => none

/-- `copyRowsFrom`, hiopMatrixMDS.hpp:303-308: the mixed matrix itself is handed to the two blocks. -/
def symCopyRowsFrom (A B : Mat K) (idx : ℕ → ℕ) (n : ℕ) : Option (Mat K) :=
  (tripletCopyRows A.m A.ns A.es (.mds B) idx n).bind fun es =>
    (denseCopyRows A.de (.mds B) idx n).map fun d => { A with es := es, de := d }

end Hiop.Mds
