import Mathlib.Logic.Function.Basic
import Mathlib.Tactic.Common

/-!
# Memory spaces: placement of objects, transfers, host mirrors (C81)

Models src/ExecBackends (ExecSpace.hpp, MemBackendCppImpl.hpp, MemBackendUmpireImpl.hpp, MemBackendCudaImpl.hpp,
MemBackendHipImpl.hpp), src/LinAlg/LinAlgFactory.cpp and the constructors, mirrors and destructors of the RAJA vectors
and matrices. Umpire, CUDA and HIP are modelled by what their documentation says of the calls used here.
-/

namespace Hiop.Mem

open Function

variable {K : Type}

/-! ## The heap -/

/-- The memory backends with their run-time state, ExecSpace.hpp:115-233. -/
inductive Backend where
  | cpp
  | umpire (space : String)
  | cuda
  | hip
deriving DecidableEq

/-- `is_host`, ExecSpace.hpp:128, 163-166, 198, 225. -/
def Backend.isHost : Backend → Bool
  | .cpp => true
  | .umpire s => s = "HOST"
  | .cuda => false
  | .hip => false

/-- `is_device`, ExecSpace.hpp:131, 167-170, 200, 227. -/
def Backend.isDevice : Backend → Bool
  | .cpp => false
  | .umpire s => s = "DEVICE"
  | .cuda => true
  | .hip => true

/-- `new_backend_host`, ExecSpace.hpp:136-139, 174-177, 204-207, 231-234. -/
def Backend.hostOf : Backend → Backend
  | .cpp => .cpp
  | .umpire _ => .umpire "HOST"
  | .cuda => .cpp
  | .hip => .cpp

/-- Can the host read and write what this backend allocates (`new`, Umpire `HOST` and `UM`)? -/
def Backend.hostSide : Backend → Prop
  | .cpp => True
  | .umpire s => s = "HOST" ∨ s = "UM"
  | .cuda => False
  | .hip => False

/-- Can device kernels read and write what this backend allocates (`cudaMalloc`, Umpire `DEVICE` and `UM`)? -/
def Backend.devSide : Backend → Prop
  | .cpp => False
  | .umpire s => s = "DEVICE" ∨ s = "UM"
  | .cuda => True
  | .hip => True

instance (b : Backend) : Decidable b.hostSide := by cases b <;> unfold Backend.hostSide <;> infer_instance
instance (b : Backend) : Decidable b.devSide := by cases b <;> unfold Backend.devSide <;> infer_instance

/-- An array: who allocated it, its length, its contents. -/
structure Block (K : Type) where
  mgr : Backend
  len : ℕ
  data : ℕ → K

/-- The arrays allocated so far; `next` is a name not in use. -/
structure Heap (K : Type) where
  next : ℕ
  blk : ℕ → Option (Block K)

/-- A pointer into an array. -/
structure Ptr where
  id : ℕ
  off : ℕ
deriving DecidableEq

/-- What a call does. -/
inductive Out (α : Type) where
  | done (a : α)
  | throws
  | ub
  | abort

/-- The next call, if this one returned. -/
def Out.bind {α β : Type} (o : Out α) (f : α → Out β) : Out β :=
  match o with
  | .done a => f a
  | .throws => .throws
  | .ub => .ub
  | .abort => .abort

/-- Cells `d … d+n-1` receive cells `s … s+n-1`. -/
def copyCells (h : Heap K) (d s : Ptr) (n : ℕ) (bd bs : Block K) : Heap K :=
  let data : ℕ → K := fun i => if d.off ≤ i ∧ i < d.off + n then bs.data (s.off + (i - d.off)) else bd.data i
  { next := h.next, blk := update h.blk d.id (some { mgr := bd.mgr, len := bd.len, data := data }) }

/-- Do the two ranges of `n` cells share a cell? -/
def overlap (d s : Ptr) (n : ℕ) : Prop := d.id = s.id ∧ d.off < s.off + n ∧ s.off < d.off + n

instance (d s : Ptr) (n : ℕ) : Decidable (overlap d s n) := by unfold overlap; infer_instance

/-- `std::memcpy` of `n` elements: undefined unless both arrays are in host memory, large enough and the ranges are
disjoint. Simplification: for no elements any pointers are allowed. -/
def memcpy (d s : Ptr) (n : ℕ) (h : Heap K) : Out (Heap K) :=
  if n = 0 then .done h
  else match h.blk d.id, h.blk s.id with
    | some bd, some bs =>
      if bd.mgr.hostSide ∧ bs.mgr.hostSide ∧ d.off + n ≤ bd.len ∧ s.off + n ≤ bs.len ∧ ¬ overlap d s n then
        .done (copyCells h d s n bd bs)
      else .ub
    | _, _ => .ub

/-- Is the array managed by Umpire? -/
def Backend.isUmpire : Backend → Bool
  | .umpire _ => true
  | _ => false

/-- `umpire::ResourceManager::copy(dst, src, size)`: both pointers must be Umpire's; **size 0 stands for all that is
left of the source**; throws if either array is too short. -/
def rmCopy (d s : Ptr) (n : ℕ) (h : Heap K) : Out (Heap K) :=
  match h.blk d.id, h.blk s.id with
  | some bd, some bs =>
    if bd.mgr.isUmpire ∧ bs.mgr.isUmpire then
      let sz := if n = 0 then bs.len - s.off else n
      if bs.len < s.off + sz ∨ bd.len < d.off + sz then .throws
      else if overlap d s sz then .ub
      else .done (copyCells h d s sz bd bs)
    else .throws
  | _, _ => .throws

/-- The direction passed to `cudaMemcpy`/`hipMemcpy`. -/
inductive Dir where
  | hostToDevice | deviceToHost | deviceToDevice

/-- Do the arrays fit the direction? -/
def Dir.fits (dir : Dir) (d s : Backend) : Prop :=
  match dir with
  | .hostToDevice => d.devSide ∧ s.hostSide
  | .deviceToHost => d.hostSide ∧ s.devSide
  | .deviceToDevice => d.devSide ∧ s.devSide

instance (dir : Dir) (d s : Backend) : Decidable (dir.fits d s) := by
  cases dir <;> unfold Dir.fits <;> infer_instance

/-- `cudaMemcpy`, `hipMemcpy` of `n` elements: whether it reported success, and the heap. A direction that does not fit
is an error; ranges that leave the arrays or overlap are undefined. -/
def gpuMemcpy (dir : Dir) (d s : Ptr) (n : ℕ) (h : Heap K) : Out (Bool × Heap K) :=
  if n = 0 then .done (true, h)
  else match h.blk d.id, h.blk s.id with
    | some bd, some bs =>
      if d.off + n ≤ bd.len ∧ s.off + n ≤ bs.len ∧ ¬ overlap d s n then
        if dir.fits bd.mgr bs.mgr then .done (true, copyCells h d s n bd bs) else .done (false, h)
      else .ub
    | _, _ => .ub

/-! ## Allocation -/

/-- `AllocImpl<…>::alloc`, MemBackendCppImpl.hpp:74-81, MemBackendUmpireImpl.hpp:72-81, MemBackendCudaImpl.hpp:74-84,
MemBackendHipImpl.hpp:73-83. `junk` is what the memory happens to hold. Simplification: allocations succeed. -/
def alloc (junk : ℕ → K) (b : Backend) (n : ℕ) (h : Heap K) : Ptr × Heap K :=
  (⟨h.next, 0⟩, { next := h.next + 1, blk := update h.blk h.next (some ⟨b, n, junk⟩) })

/-- `DeAllocImpl<…>::dealloc`, MemBackendCppImpl.hpp:83-90, MemBackendUmpireImpl.hpp:83-92, MemBackendCudaImpl.hpp:86-94,
MemBackendHipImpl.hpp:85-93: undefined unless the pointer is the start of an array of this backend. -/
def dealloc (b : Backend) (p : Ptr) (h : Heap K) : Out (Heap K) :=
  match h.blk p.id with
  | some bl => if bl.mgr = b ∧ p.off = 0 then .done { h with blk := update h.blk p.id none } else .ub
  | none => .ub

/-! ## Transfers -/

/-- `assert(false && …); return false;`, MemBackendUmpireImpl.hpp:205-206, 227-228, 254-255, 276-277. -/
def unsupported (asserts : Bool) (h : Heap K) : Out (Bool × Heap K) :=
  if asserts then .abort else .done (false, h)

/-- `auto err = cudaMemcpy(…); assert(cudaSuccess == err); return cudaSuccess == err;`, MemBackendCudaImpl.hpp:107-109,
122-124, 137-139. -/
def checked (asserts : Bool) (o : Out (Bool × Heap K)) : Out (Bool × Heap K) :=
  o.bind fun r => if asserts ∧ ¬ r.1 then .abort else .done r

/-- The transfers between Umpire and CUDA or HIP memory, MemBackendUmpireImpl.hpp:190-281. -/
def umpireGpu (asserts : Bool) (u : Backend) (fromHost : Dir) (d s : Ptr) (n : ℕ) (h : Heap K) : Out (Bool × Heap K) :=
  if u.isDevice then gpuMemcpy .deviceToDevice d s n h
  else if u.isHost then gpuMemcpy fromHost d s n h
  else unsupported asserts h

/-- `TransferImpl<…>::do_it` for destination backend `bd` and source backend `bs`: MemBackendCppImpl.hpp:95-107,
MemBackendUmpireImpl.hpp:98-281, MemBackendCudaImpl.hpp:99-141, MemBackendHipImpl.hpp:98-134, and the generic
ExecSpace.hpp:446-456 for the pairs without a specialization. -/
def transfer (asserts : Bool) (junk : ℕ → K) (bd bs : Backend) (d s : Ptr) (n : ℕ) (h : Heap K) : Out (Bool × Heap K) :=
  match bd, bs with
  | .cpp, .cpp => (memcpy d s n h).bind fun h => .done (true, h)
  | .umpire _, .umpire _ => if 0 < n then (rmCopy d s n h).bind fun h => .done (true, h) else .done (true, h)
  | .cpp, .umpire _ =>
    if bs.isHost then (memcpy d s n h).bind fun h => .done (true, h)
    else if 0 < n then
      let t := (alloc junk (.umpire "HOST") n h).1
      (rmCopy t s n (alloc junk (.umpire "HOST") n h).2).bind fun h =>
        (memcpy d t n h).bind fun h =>
          (dealloc (.umpire "HOST") t h).bind fun h => .done (true, h)
    else .done (true, h)
  | .umpire _, .cpp =>
    if bd.isHost then (memcpy d s n h).bind fun h => .done (true, h)
    else if 0 < n then
      let t := (alloc junk (.umpire "HOST") n h).1
      (memcpy t s n (alloc junk (.umpire "HOST") n h).2).bind fun h =>
        (rmCopy d t n h).bind fun h =>
          (dealloc (.umpire "HOST") t h).bind fun h => .done (true, h)
    else .done (true, h)
  | .cuda, .umpire _ => umpireGpu asserts bs .hostToDevice d s n h
  | .umpire _, .cuda => umpireGpu asserts bd .deviceToHost d s n h
  | .hip, .umpire _ => umpireGpu asserts bs .hostToDevice d s n h
  | .umpire _, .hip => umpireGpu asserts bd .deviceToHost d s n h
  | .cuda, .cuda => checked asserts (gpuMemcpy .deviceToDevice d s n h)
  | .cuda, .cpp => checked asserts (gpuMemcpy .hostToDevice d s n h)
  | .cpp, .cuda => checked asserts (gpuMemcpy .deviceToHost d s n h)
  | .hip, .hip => gpuMemcpy .deviceToDevice d s n h
  | .hip, .cpp => gpuMemcpy .hostToDevice d s n h
  | .cpp, .hip => gpuMemcpy .deviceToHost d s n h
  | .cuda, .hip => .done (false, h)
  | .hip, .cuda => .done (false, h)

/-! ## Objects with a host mirror -/

/-- The arrays of a RAJA vector: `data_dev_`, `data_host_`, and the backend of `exec_space_`, hiopVectorRaja.hpp. -/
structure Mirrored where
  mem : Backend
  n : ℕ
  dev : Ptr
  host : Ptr

/-- `hiopVectorRaja(…)`, hiopVectorRajaImpl.hpp:92-143 (`n` is `n_local_`), and `hiopVectorIntRaja(…)`,
hiopVectorIntRajaImpl.hpp:62-80. -/
def vecNew (junk : ℕ → K) (b : Backend) (n : ℕ) (h : Heap K) : Mirrored × Heap K :=
  let a := alloc junk b n h
  if b.isDevice then
    let c := alloc junk b.hostOf n a.2
    (⟨b, n, a.1, c.1⟩, c.2)
  else (⟨b, n, a.1, a.1⟩, a.2)

/-- `~hiopVectorRaja`, hiopVectorRajaImpl.hpp:176-186, and `~hiopVectorIntRaja`, hiopVectorIntRajaImpl.hpp:82-92.
Simplification: without `idx_cumsum_`. -/
def vecDelete (v : Mirrored) (h : Heap K) : Out (Heap K) :=
  (if v.dev ≠ v.host then dealloc v.mem.hostOf v.host h else .done h).bind fun h => dealloc v.mem v.dev h

/-- `copyToDev`, hiopVectorRajaImpl.hpp:2099-2106; `copy_to_dev`, hiopVectorIntRajaImpl.hpp:102-108. The result of the
copy is ignored. -/
def copyToDev (asserts : Bool) (junk : ℕ → K) (v : Mirrored) (h : Heap K) : Out (Heap K) :=
  if v.dev = v.host then .done h
  else if asserts ∧ ¬ v.mem.isDevice then .abort
  else (transfer asserts junk v.mem v.mem.hostOf v.dev v.host v.n h).bind fun r => .done r.2

/-- `copyFromDev`, hiopVectorRajaImpl.hpp:2108-2114; `copy_from_dev`, hiopVectorIntRajaImpl.hpp:94-100. -/
def copyFromDev (asserts : Bool) (junk : ℕ → K) (v : Mirrored) (h : Heap K) : Out (Heap K) :=
  if v.dev = v.host then .done h
  else (transfer asserts junk v.mem.hostOf v.mem v.host v.dev v.n h).bind fun r => .done r.2

/-- The arrays of a dense RAJA matrix, hiopMatrixDenseRaja.hpp. -/
structure DenseArr where
  mem : Backend
  dev : Ptr
  host : Ptr
  yglob : Ptr
  ya : Ptr

/-- `hiopMatrixDenseRaja(…)`, hiopMatrixDenseRajaImpl.hpp:71-124; `sz` is `n_local_*max_rows_`, `m` is `m_local_`. -/
def denseNew (junk : ℕ → K) (b : Backend) (sz m : ℕ) (h : Heap K) : DenseArr × Heap K :=
  let a := alloc junk b sz h
  if b.isDevice then
    let c := alloc junk b.hostOf sz a.2
    let y := alloc junk b.hostOf m c.2
    let z := alloc junk b.hostOf m y.2
    (⟨b, a.1, c.1, y.1, z.1⟩, z.2)
  else
    let y := alloc junk b m a.2
    let z := alloc junk b m y.2
    (⟨b, a.1, a.1, y.1, z.1⟩, z.2)

/-- `~hiopMatrixDenseRaja`, hiopMatrixDenseRajaImpl.hpp:126-149. Simplification: without `buff_mxnlocal_host_`. -/
def denseDelete (v : DenseArr) (h : Heap K) : Out (Heap K) :=
  (if v.dev ≠ v.host then
      (dealloc v.mem.hostOf v.host h).bind fun h =>
        (dealloc v.mem.hostOf v.yglob h).bind fun h => dealloc v.mem.hostOf v.ya h
    else (dealloc v.mem v.yglob h).bind fun h => dealloc v.mem v.ya h).bind fun h =>
  dealloc v.mem v.dev h

/-! ## The factory -/

/-- How HiOp was built: `HIOP_USE_RAJA`, `HIOP_USE_CUDA`, `HIOP_USE_HIP`, and whether assertions are on. -/
structure Build where
  raja : Bool
  cuda : Bool
  hip : Bool
  asserts : Bool
deriving DecidableEq

/-- What runs the loops of an object: the execution policies of ExecSpace.hpp:236-300. -/
inductive Policy where
  | seq | cuda | hip | rajaCuda | rajaHip | rajaOmp
deriving DecidableEq

/-- An object: who allocates its arrays and who runs its loops. -/
structure Obj where
  mem : Backend
  run : Policy
deriving DecidableEq

/-- What asking for an object gives. -/
inductive Made where
  | obj (o : Obj)
  | null
  | throws
  | abort
deriving DecidableEq

/-- The kinds of objects the factory makes from an `ExecSpaceInfo`, LinAlgFactory.hpp. -/
inductive Kind where
  | vec | vecInt | dense | sparse | symSparse
deriving DecidableEq

/-- `ExecSpaceInfo`, ExecSpace.hpp:75-108. -/
structure Info where
  memSpace : String
  memBackend : String
  execBackend : String

/-- `toupper`, hiopCppStdUtils.hpp:66-71. -/
def toupper (s : String) : String := s.toUpper

/-- `ExecSpaceInfo(mem_space)`, ExecSpace.hpp:77-98; `none` if the assertion fails. -/
def info (b : Build) (mem : String) : Option Info :=
  let u := toupper mem
  if u = "DEFAULT" then some ⟨u, "STDCPP", "HOST"⟩
  else if u = "CUDA" then some ⟨u, "CUDA", "CUDA"⟩
  else if u = "HIP" then some ⟨u, "HIP", "HIP"⟩
  else if b.asserts ∧ ¬ (u = "DEVICE" ∨ u = "UM" ∨ u = "HOST") then none
  else some ⟨u, "UMPIRE", "RAJA"⟩

/-- The resources of Umpire: `HOST` always, `DEVICE` and `UM` if it was built for a GPU. -/
def umpireHas (b : Build) (s : String) : Prop := s = "HOST" ∨ ((b.cuda ∨ b.hip) ∧ (s = "DEVICE" ∨ s = "UM"))

instance (b : Build) (s : String) : Decidable (umpireHas b s) := by unfold umpireHas; infer_instance

/-- The constructors of the RAJA objects with the Umpire backend, hiopVectorRajaImpl.hpp:129-133,
hiopVectorIntRajaImpl.hpp:70-74, hiopMatrixDenseRajaImpl.hpp:107-111: without a GPU the space is asserted to be `HOST`;
the sparse matrices (hiopMatrixRajaSparseTripletImpl.hpp:91-99) use `HOST` then, whatever was asked for. -/
def rajaNew (b : Build) (k : Kind) (s : String) (p : Policy) : Made :=
  let gpu := b.cuda ∨ b.hip
  match k with
  | .sparse | .symSparse =>
    let s' := if gpu then s else "HOST"
    if umpireHas b s' then .obj ⟨.umpire s', p⟩ else .throws
  | _ =>
    if b.asserts ∧ ¬ gpu ∧ s ≠ "HOST" then .abort
    else if umpireHas b s then .obj ⟨.umpire s, p⟩ else .throws

/-- `#ifdef HIOP_USE_CUDA … HIOP_USE_HIP … #else`, LinAlgFactory.cpp:112-122, 192-202, 275-297, 395-402, 513-520. -/
def rajaPolicy (b : Build) : Policy := if b.cuda then .rajaCuda else if b.hip then .rajaHip else .rajaOmp

/-- `assert(false); return nullptr;`. -/
def refuse (b : Build) : Made := if b.asserts then .abort else .null

/-- The objects of a `DEFAULT` request. -/
def hostObj : Obj := ⟨.cpp, .seq⟩

/-- `create_vector`, `create_vector_int`, `create_matrix_dense`, `create_matrix_sparse`, `create_matrix_sym_sparse`,
LinAlgFactory.cpp:100-174, 182-254, 262-378, 384-462, 503-580. Simplification: the `RAJA` execution with a memory backend
other than Umpire ("work in progress", which `ExecSpaceInfo` never asks for) is refused; in builds without assertions it
would go on. -/
def create (b : Build) (k : Kind) (i : Info) : Made :=
  if toupper i.memSpace = "DEFAULT" then .obj hostObj
  else if i.execBackend = "RAJA" then
    if b.raja then
      if i.memBackend = "UMPIRE" then rajaNew b k (toupper i.memSpace) (rajaPolicy b) else refuse b
    else refuse b
  else match k with
    | .vec | .vecInt =>
      if toupper i.memSpace = "CUDA" then
        if b.cuda then .obj ⟨.cuda, .cuda⟩ else refuse b
      else if toupper i.memSpace = "HIP" then
        if b.hip then .obj ⟨.hip, .hip⟩ else refuse b
      else refuse b
    | .dense =>
      if b.asserts then .abort
      else if toupper i.memSpace = "CUDA" ∧ b.cuda then .obj ⟨.cuda, .rajaCuda⟩ else .null
    | .sparse | .symSparse => refuse b

/-- Asking for an object by the name of a memory space, as every caller does (the constructor of `ExecSpaceInfo` is
implicit). -/
def createIn (b : Build) (k : Kind) (mem : String) : Made :=
  match info b mem with
  | none => .abort
  | some i => create b k i

/-- `create_matrix_sparse_csr`, LinAlgFactory.cpp:464-478, 480-497. -/
def createCsr (b : Build) (mem : String) : Made :=
  if toupper mem = "DEFAULT" then .obj hostObj
  else if b.cuda then .obj ⟨.cuda, .cuda⟩
  else refuse b

/-- `create_raw_array`, LinAlgFactory.cpp:585-603. -/
def createRaw (b : Build) (mem : String) : Option Backend :=
  if toupper mem = "DEFAULT" then some .cpp
  else if b.raja then (if umpireHas b (toupper mem) then some (.umpire (toupper mem)) else none)
  else none

/-- `delete_raw_array`, LinAlgFactory.cpp:608-620: the backend asked to free the array, or none. -/
def deleteRaw (b : Build) (mem : String) : Option Backend :=
  if toupper mem = "DEFAULT" then some .cpp
  else if b.raja then (if umpireHas b (toupper mem) then some (.umpire (toupper mem)) else none)
  else none

end Hiop.Mem
