/-
Resources and return value of `plasma_zgesdd` when memory runs out or `dbdsdc` fails (compute/zgesdd.c).
-/
import Mathlib.Tactic.Basic

namespace Verif.GesddRes

/-- The blocks of memory that a call allocates: the tile matrices `A` and `T`, the workspace, the arrays of `plasma_omp_zgesdd`, the real vectors and the tile
matrices `U` and `VT` (compute/zgesdd.c:187-211, 455-469, 501-563, 619-620, 682, 737). The blocks of a workspace count as one; what the
kernels and LAPACKE allocate is not modelled. -/
inductive Blk
  | descA | descT | work | band | e | tauQ | vQ | tQ | tauP | vP | tP | ru | rvt | descU | descVT
  deriving DecidableEq

/-- Outcome of a call: the value returned, the blocks still allocated, and whether the decomposition has been computed; or undefined behaviour
(compute/zgesdd.c:192-249, 682, 737). -/
inductive Res
  | ret (code : Int) (live : List Blk) (computed : Bool)
  | ub
  deriving DecidableEq

/-- One `malloc` (for instance compute/zgesdd.c:465); `ok` says which succeed. -/
def alloc (ok : Blk → Bool) (live : List Blk) (b : Blk) : List Blk := if ok b then b :: live else live

/-- `free` of some pointers, which does nothing for `NULL` (for instance compute/zgesdd.c:623-624). -/
def frees (bs live : List Blk) : List Blk := live.filter fun b => !bs.contains b

/-- The arrays that are freed at `cleanup` (compute/zgesdd.c:769-779). -/
def temps : List Blk := [.e, .band, .vQ, .vP, .tauQ, .tauP, .tQ, .tP]

/-- `plasma_omp_zgesdd` with valid arguments (compute/zgesdd.c:400-780); `vec`: vectors are wanted, `info`: result of `dbdsdc`. The status of the sequence is set
nowhere. The result of `plasma_desc_general_create` for `U` and `VT` is not looked at (lines 682, 737): if it fails the tiles are accessed through `NULL`.
`none` is undefined behaviour; otherwise the blocks allocated and whether the end was reached without a `goto cleanup`. -/
def ompGesdd (vec : Bool) (ok : Blk → Bool) (info : Int) (live : List Blk) : Option (List Blk × Bool) :=
  let l := alloc ok live .band
  if !ok .band then some (frees temps l, false) else
  let l := alloc ok l .e
  if !ok .e then some (frees temps l, false) else
  let qs : List Blk := if vec then [.tauQ, .vQ, .tQ] else [.tauQ, .vQ]
  let l := qs.foldl (alloc ok) l
  if !qs.all ok then some (frees temps l, false) else
  let ps : List Blk := if vec then [.tauP, .vP, .tP] else [.tauP, .vP]
  let l := ps.foldl (alloc ok) l
  if !ps.all ok then some (frees temps l, false) else
  if vec then
    let l := [.ru, .rvt].foldl (alloc ok) l
    if !(ok .ru && ok .rvt) then some (frees temps (frees [.ru, .rvt] l), false) else
    let l := frees [.ru, .rvt] l
    if info ≠ 0 then some (frees temps l, false) else
    let l := alloc ok l .descU
    if !ok .descU then none else
    let l := frees [.descU] l
    let l := alloc ok l .descVT
    if !ok .descVT then none else
    let l := frees [.descVT] l
    some (frees temps l, true)
  else
    if info ≠ 0 then some (frees temps l, false) else some (frees temps l, true)

/-- `plasma_zgesdd` with valid arguments and `nb ≤ min(m,n)` (compute/zgesdd.c:187-249); `PlasmaErrorOutOfMemory` is -104. -/
def gesdd (vec : Bool) (ok : Blk → Bool) (info : Int) : Res :=
  if !ok .descA then .ret (-104) [] false else
  let l := alloc ok [] .descA
  if !ok .descT then .ret (-104) l false else
  let l := alloc ok l .descT
  if !ok .work then .ret (-104) l false else
  let l := alloc ok l .work
  match ompGesdd vec ok info l with
  | none => .ub
  | some (l, c) => .ret 0 (frees [.work, .descA] l) c

end Verif.GesddRes
