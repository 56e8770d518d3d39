/-
Library context (control/context.c) as a state machine, and the constant tables
(include/plasma_core_blas.h, control/constants.c).
-/
import Mathlib.Data.List.Basic
import Mathlib.Tactic.Common

namespace Verif.Context

/-- `plasma_context_t` (include/plasma_context.h:28-43), the fields reachable through
`plasma_set`/`plasma_get`. -/
structure Ctx where
  tuning : Int
  nb : Int
  ib : Int
  panel : Int
  house : Int
  deriving DecidableEq, Repr

/-- Global state `plasma_initialized_g`, `plasma_context_g` (control/context.c:22-23). -/
structure G where
  initialized : Bool
  ctx : Ctx
  deriving DecidableEq, Repr

/-- Static initialisation: not initialised, fields zero. -/
def G.start : G := ⟨false, ⟨0, 0, 0, 0, 0⟩⟩

/-- Error codes and parameter names (include/plasma_types.h). -/
def notInitialized : Int := -101
/-- `PlasmaErrorIllegalValue`. -/
def illegalValue : Int := -103
/-- `PlasmaErrorEnvironment`. -/
def environment : Int := -109
/-- `PlasmaTuning`. -/
def pTuning : Int := 0
/-- `PlasmaNb`. -/
def pNb : Int := 1
/-- `PlasmaIb`. -/
def pIb : Int := 2
/-- `PlasmaNumPanelThreads`. -/
def pPanel : Int := 4
/-- `PlasmaHouseholderMode`. -/
def pHouse : Int := 5

/-- `plasma_context_init` (control/context.c:167-182).  `plasma_tuning_init`
(control/tuning.c:29-64 and 107-112) never stores anything in the context. -/
def ctxInit : Ctx := ⟨1, 256, 64, 1, 0⟩

/-- `plasma_init` (control/context.c:30-47); `par` is `omp_in_parallel()`. -/
def doInit (par : Bool) (g : G) : Int × G :=
  if g.initialized then (notInitialized, g)
  else if par then (notInitialized, g)
  else (0, ⟨true, ctxInit⟩)

/-- `plasma_finalize` (control/context.c:54-71). -/
def doFinalize (par : Bool) (g : G) : Int × G :=
  if ¬ g.initialized then (notInitialized, g)
  else if par then (environment, g)
  else (0, { g with initialized := false })

/-- `plasma_set` (control/context.c:78-126). -/
def doSet (par : Bool) (param value : Int) (g : G) : Int × G :=
  if ¬ g.initialized then (notInitialized, g)
  else if par then (environment, g)
  else if param = pTuning then
    if value ≠ 1 ∧ value ≠ 0 then (illegalValue, g)
    else (0, { g with ctx := { g.ctx with tuning := value } })
  else if param = pNb then
    if value ≤ 0 then (illegalValue, g)
    else (0, { g with ctx := { g.ctx with nb := value } })
  else if param = pIb then
    if value ≤ 0 then (illegalValue, g)
    else (0, { g with ctx := { g.ctx with ib := value } })
  else if param = pPanel then
    if value ≤ 0 then (illegalValue, g)
    else (0, { g with ctx := { g.ctx with panel := value } })
  else if param = pHouse then
    if value ≠ 0 ∧ value ≠ 1 then (illegalValue, g)
    else (0, { g with ctx := { g.ctx with house := value } })
  else (illegalValue, g)

/-- `plasma_get` (control/context.c:132-161): return code and, on success, the value
stored through the pointer. -/
def doGet (param : Int) (g : G) : Int × Option Int :=
  if ¬ g.initialized then (notInitialized, none)
  else if param = pTuning then (0, some g.ctx.tuning)
  else if param = pNb then (0, some g.ctx.nb)
  else if param = pIb then (0, some g.ctx.ib)
  else if param = pPanel then (0, some g.ctx.panel)
  else if param = pHouse then (0, some g.ctx.house)
  else (illegalValue, none)

/-- An API call, `par` = made inside a parallel region. -/
inductive Call
  | init (par : Bool)
  | finalize (par : Bool)
  | set (par : Bool) (param value : Int)
  | get (param : Int)

/-- Return code and new state of one call (control/context.c). -/
def call (c : Call) (g : G) : Int × G := match c with
  | .init par => doInit par g
  | .finalize par => doFinalize par g
  | .set par p v => doSet par p v g
  | .get p => ((doGet p g).1, g)

/-- State and history (call, return code), most recent first, after a list of calls. -/
def history : List Call → G × List (Call × Int)
  | [] => (G.start, [])
  | c :: cs => let (g, h) := history cs; ((call c g).2, (c, (call c g).1) :: h)

/-! ### Constants -/

/-- The `lapack_constants` table (include/plasma_core_blas.h:25-107).  The entry for
`PlasmaRowwise` is *not* followed by a comma (line 92), so the C compiler concatenates it
with the following empty string and all later entries move down by one. -/
def lapackConstants : List String :=
  List.replicate 100 "" ++
  (List.replicate 10 "" ++ [""] ++ ["NoTrans", "Trans", "ConjTrans"]) ++
  (List.replicate 7 "" ++ ["Upper", "Lower", "General"]) ++
  (List.replicate 7 "" ++ ["NonUnit", "Unit"]) ++
  (List.replicate 8 "" ++ ["Left", "Right"]) ++
  (List.replicate 28 "" ++ ["One", "", "Two", "Frobenius", "Infinity", "", "Maximum", ""]) ++
  (List.replicate 4 "" ++ List.replicate 200 "" ++ List.replicate 8 "") ++
  ["Forward", "Backward"] ++ List.replicate 8 "" ++
  ["Columnwise", "Rowwise" ++ ""] ++ List.replicate 9 "" ++
  List.replicate 80 "" ++ List.replicate 8 "" ++ ["W", "A2", ""]

/-- First character of a C string. -/
def firstChar (s : String) : Char := s.toList.headD '\x00'

/-- `lapack_const` (include/plasma_core_blas.h:114-119). -/
def lapackConst (c : Int) : Char :=
  if c < 0 ∨ c ≥ lapackConstants.length then
    firstChar (lapackConstants.getD (lapackConstants.length - 1) "")
  else firstChar (lapackConstants.getD c.toNat "")

/-- `plasma_trans_const` (control/constants.c). -/
def transConst (c : Char) : Int :=
  if c = 'N' ∨ c = 'n' then 111 else if c = 'T' ∨ c = 't' then 112
  else if c = 'C' ∨ c = 'c' then 113 else -1
/-- `plasma_uplo_const` (control/constants.c): anything else is `PlasmaGeneral`. -/
def uploConst (c : Char) : Int :=
  if c = 'U' ∨ c = 'u' then 121 else if c = 'L' ∨ c = 'l' then 122 else 123
/-- `plasma_diag_const` (control/constants.c). -/
def diagConst (c : Char) : Int :=
  if c = 'N' ∨ c = 'n' then 131 else if c = 'U' ∨ c = 'u' then 132 else -1
/-- `plasma_side_const` (control/constants.c). -/
def sideConst (c : Char) : Int :=
  if c = 'L' ∨ c = 'l' then 141 else if c = 'R' ∨ c = 'r' then 142 else -1
/-- `plasma_norm_const` (control/constants.c). -/
def normConst (c : Char) : Int :=
  if c = 'O' ∨ c = 'o' ∨ c = '1' then 171 else if c = '2' then 173
  else if c = 'F' ∨ c = 'f' ∨ c = 'E' ∨ c = 'e' then 174
  else if c = 'I' ∨ c = 'i' then 175 else if c = 'M' ∨ c = 'm' then 177 else -1
/-- `plasma_direct_const` (control/constants.c). -/
def directConst (c : Char) : Int :=
  if c = 'F' ∨ c = 'f' then 391 else if c = 'B' ∨ c = 'b' then 392 else -1
/-- `plasma_storev_const` (control/constants.c). -/
def storevConst (c : Char) : Int :=
  if c = 'C' ∨ c = 'c' then 401 else if c = 'R' ∨ c = 'r' then 402 else -1

end Verif.Context
