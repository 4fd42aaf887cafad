import Verif.Swsr.Model
import Verif.Swsr.Spec
/-!
# Histories of calls executed on the model
-/
namespace FF.Swsr
variable {α : Type}

/-- One call on the model of `SWSR_Ptr_Buffer`; `none` = undefined behaviour. -/
def Q.step (q : Q α) : Op α → Option (Q α × Out α)
  | .push a => (q.push (some a)).map fun (q, b) => (q, .bool b)
  | .pop => (q.pop).map fun (q, r) => (q, .item r.join)
  | .empty => (q.empty).map fun b => (q, .bool b)
  | .available => (q.available).map fun b => (q, .bool b)
  | .top => (q.top).map fun r => (q, .item r)
  | .length => (q.length).map fun n => (q, .num n)
  | .buffersize => some (q, .num q.buffersize)
  | .reset => (q.reset false).map fun q => (q, .unit)

/-- Outputs of a history of calls; `none` = some call had undefined behaviour. -/
def Q.run (q : Q α) : List (Op α) → Option (List (Out α))
  | [] => some []
  | op :: ops => do
    let (q', o) ← q.step op
    let os ← q'.run ops
    some (o :: os)

/-- State after a history of calls. -/
def Q.final (q : Q α) : List (Op α) → Option (Q α)
  | [] => some q
  | op :: ops => do
    let (q', _) ← q.step op
    q'.final ops

/-- One call, or one `multipush`, on the model of `SWSR_Ptr_Buffer`. -/
def Q.mstep (q : Q α) : MOp α → Option (Q α × Out α)
  | .op o => q.step o
  | .multi as => (q.multipush (as.map some)).map fun (q, b) => (q, .bool b)

def Q.mrun (q : Q α) : List (MOp α) → Option (List (Out α))
  | [] => some []
  | op :: ops => do
    let (q', o) ← q.mstep op
    let os ← q'.mrun ops
    some (o :: os)

/-- One call on the model of `Lamport_Buffer` (which has no `top`: not called). -/
def L.step (q : L α) : Op α → Option (L α × Out α)
  | .push a => (q.push (some a)).map fun (q, b) => (q, .bool b)
  | .pop => (q.pop).map fun (q, r) => (q, .item r.join)
  | .empty => some (q, .bool q.empty)
  | .available => some (q, .bool q.available)
  | .top => none
  | .length => (q.length).map fun n => (q, .num n)
  | .buffersize => some (q, .num q.size)
  | .reset => some (q.reset, .unit)

def L.run (q : L α) : List (Op α) → Option (List (Out α))
  | [] => some []
  | op :: ops => do
    let (q', o) ← q.step op
    let os ← q'.run ops
    some (o :: os)

/-- A history that fills a `multipush`-enabled queue. -/
def Q.mpushAll (q : Q α) : List α → Option (Q α × List Bool)
  | [] => some (q, [])
  | a :: as => do
    let (q, b) ← q.mpush (some a)
    let (q, bs) ← q.mpushAll as
    some (q, b :: bs)

end FF.Swsr
