import Verif.Raja.Sched
import Verif.Gpu.Model

/-!
# Model of vectors of integers

Source: `src/LinAlg/hiopVectorIntSeq.cpp`, `hiopVectorIntRajaImpl.hpp`, `hiopVectorIntCompoundPD.cpp`, the kernel of
`linspace` in `VectorCudaKernels.cu` (HIP: `VectorHipKernels.cpp`), and their use in `hiopAlgPrimalDecomp.cpp` and
`hiopInterfacePrimalDecomp.cpp`. `index_type` is `int` (Interface/hiop_types.h:12): a sum or product outside its range is
undefined behaviour, `none` or `fail` below. Constants on CUDA and HIP devices are in `Verif/Gpu/Model`; memory spaces in
`Verif/Mem/Model`.
-/

namespace Hiop.IntVec

open Hiop.Raja

/-- The range of `int`. Code: Interface/hiop_types.h:12. -/
def IsInt (z : ℤ) : Prop := -2 ^ 31 ≤ z ∧ z < 2 ^ 31

instance (z : ℤ) : Decidable (IsInt z) := by unfold IsInt; infer_instance

/-- `a + b` on `int`, as in hiopVectorIntSeq.cpp:123. -/
def add32 (a b : ℤ) : Option ℤ := if IsInt (a + b) then some (a + b) else none

/-- `a * b` on `int`, as in VectorCudaKernels.cu:602 and VectorHipKernels.cpp:597. -/
def mul32 (a b : ℤ) : Option ℤ := if IsInt (a * b) then some (a * b) else none

/-- Conversion of a 64-bit integer to `int`: the low 32 bits. Code: hiopVectorIntRajaImpl.hpp:167. -/
def narrow (z : ℤ) : ℤ := (z + 2 ^ 31) % 2 ^ 32 - 2 ^ 31

/-! ## Host -/

/-- The loop of `linspace`, hiopVectorIntSeq.cpp:120-124, from index `i` with `k` iterations to go. -/
def linspaceLoop (di : ℤ) : ℕ → ℕ → ℤ → (ℕ → ℤ) → Option (ℕ → ℤ)
  | 0, _, _, buf => some buf
  | k + 1, i, last, buf =>
    (add32 last di).bind fun last' => linspaceLoop di k (i + 1) last' (Function.update buf i last)

/-- `linspace`, hiopVectorIntSeq.cpp:118-125. -/
def linspaceSeq (sz : ℕ) (i0 di : ℤ) (buf : ℕ → ℤ) : Option (ℕ → ℤ) := linspaceLoop di sz 0 i0 buf

/-- The loop of `set_to_constant`, hiopVectorIntSeq.cpp:103-105. -/
def constantLoop (c : ℤ) : ℕ → ℕ → (ℕ → ℤ) → ℕ → ℤ
  | 0, _, buf => buf
  | k + 1, i, buf => constantLoop c k (i + 1) (Function.update buf i c)

/-- `set_to_constant`, hiopVectorIntSeq.cpp:101-106. -/
def constantSeq (sz : ℕ) (c : ℤ) (buf : ℕ → ℤ) : ℕ → ℤ := constantLoop c sz 0 buf

/-- `set_to_zero`, hiopVectorIntSeq.cpp:94-99. -/
def zeroSeq (sz : ℕ) (buf : ℕ → ℤ) : ℕ → ℤ := constantLoop 0 sz 0 buf

/-- `copy_from`, hiopVectorIntSeq.cpp:75-80, hiopVectorIntRajaImpl.hpp:126-131, hiopVectorIntCuda.cpp:84-89,
hiopVectorIntHip.cpp:83-88: a null pointer is ignored. -/
def copyFrom (sz : ℕ) (v : Option (ℕ → ℤ)) (buf : ℕ → ℤ) : ℕ → ℤ :=
  match v with
  | some v => fun i => if i < sz then v i else buf i
  | none => buf

/-- `copy_from_vectorseq` and, with the roles exchanged, `copy_to_vectorseq`: hiopVectorIntSeq.cpp:82-92,
hiopVectorIntRajaImpl.hpp:111-122, hiopVectorIntCuda.cpp:91-103, hiopVectorIntHip.cpp:90-102; the sizes are asserted. -/
def copyVec (szTo szFrom : ℕ) (src dst : ℕ → ℤ) : Option (ℕ → ℤ) :=
  if szFrom = szTo then some fun i => if i < szTo then src i else dst i else none

/-! ## RAJA and devices -/

/-- `linspace`, hiopVectorIntRajaImpl.hpp:161-169: `i` has 64 bits, so the sum has, and is converted on assignment. -/
def linspaceR (sz : ℕ) (i0 di : ℤ) (buf : ℕ → ℤ) : Out (ℕ → ℤ) :=
  forallR sz (fun i => .wr i (narrow (i0 + i * di)) .ret) buf

/-- `set_to_constant`, hiopVectorIntRajaImpl.hpp:140-148. -/
def constantR (sz : ℕ) (c : ℤ) (buf : ℕ → ℤ) : Out (ℕ → ℤ) := forallR sz (fun i => .wr i c .ret) buf

/-- `set_to_zero`, hiopVectorIntRajaImpl.hpp:134-137: the argument `0.0` is converted to `0`. -/
def zeroR (sz : ℕ) (buf : ℕ → ℤ) : Out (ℕ → ℤ) := constantR sz 0 buf

/-- `linspace` on CUDA and HIP with the arithmetic of `int`, VectorCudaKernels.cu:596-604, 1286-1290;
VectorHipKernels.cpp:591-599, 1281-1285. -/
def linspaceD (sz : ℕ) (i0 di : ℤ) (buf : ℕ → ℤ) : Out (ℕ → ℤ) :=
  Gpu.launch sz (fun i => match (mul32 i di).bind fun p => add32 i0 p with
    | some v => .wr i v .ret
    | none => .fail) buf

/-! ## Vectors of vectors -/

/-- `hiopVectorIntCompoundPD`: the parts, hiopVectorIntCompoundPD.hpp, and `sz_`. A part is its size and content. -/
structure Comp where
  parts : List (ℕ × (ℕ → ℤ))
  sz : ℕ

/-- The constructor, hiopVectorIntCompoundPD.cpp:64-68. -/
def Comp.empty : Comp := ⟨[], 0⟩

/-- `addVector`, hiopVectorIntCompoundPD.cpp:94-99. -/
def Comp.add (c : Comp) (n : ℕ) (v : ℕ → ℤ) : Comp := ⟨c.parts ++ [(n, v)], c.sz + n⟩

/-- `set_to_constant`, hiopVectorIntCompoundPD.cpp:87-92 (parts on the host). -/
def Comp.constant (c : Comp) (a : ℤ) : Comp := { c with parts := c.parts.map fun p => (p.1, constantSeq p.1 a p.2) }

/-- `set_to_zero`, hiopVectorIntCompoundPD.cpp:80-85. -/
def Comp.zero (c : Comp) : Comp := { c with parts := c.parts.map fun p => (p.1, zeroSeq p.1 p.2) }

/-! ## Use -/

/-- `xc_idx_` of the primal decomposition: hiopAlgPrimalDecomp.cpp:612-613 without a list of coupling variables, 663-664
with one. The vector is on the host. -/
def coupling (nc : ℕ) (list : Option (ℕ → ℤ)) (fresh : ℕ → ℤ) : Option (ℕ → ℤ) :=
  match list with
  | none => linspaceSeq nc 0 1 fresh
  | some l => some (copyFrom nc (some l) fresh)

/-- `xc_idx_` of the recourse approximation made from it: hiopAlgPrimalDecomp.cpp:860, 1345, 1831;
hiopInterfacePrimalDecomp.cpp:52-53. -/
def evaluatorIdx (nc : ℕ) (drv fresh : ℕ → ℤ) : ℕ → ℤ := copyFrom nc (some drv) fresh

end Hiop.IntVec
