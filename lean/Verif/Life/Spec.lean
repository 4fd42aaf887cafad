import Verif.Life.Model
/-!
# C70: what it says
-/
namespace FF.Life
open FF

/-- What the program promises about its `serialize()`: a task has at least one byte, and a task that does not
copy its bytes names the function that releases it.  A message received has at least one byte (the receiver makes
a logical EOS of the others, ff_dreceiverMTCL.hpp 80, 103-104). -/
structure Contract (c : Cfg) : Prop where
  nonempty : ∀ k, (c.ser k).bytes ≠ []
  borrowed : ∀ k, (c.ser k).copied = false → (c.ser k).hook = true
  received : ∀ j, c.rbytes j ≠ []

/-- The block that a release concerns. -/
def Rel.block (c : Cfg) : Rel → Blk
  | .free d => c.blk d
  | .hook _ d _ => c.blk d
  | .task k => .obj k
  | .user b => b

/-- How often block `b` has been released. -/
def releases (c : Cfg) (s : S) (b : Blk) : Nat := (s.log.map (Rel.block c)).count b

/-- The release is the one the program asked for: `free` for a buffer made by a `serialize()` that copies and
names no function, and for a received buffer that `deserialize` copied; the program's function, with the task and
its bytes, if it named one; `freetaskF` for a task that was copied. -/
def Rel.proper (c : Cfg) : Rel → Prop
  | .free (.out k) => (c.ser k).copied = true ∧ (c.ser k).hook = false
  | .free (.inp j) => c.dcopied j = true
  | .hook o (.out k) _ => (c.ser k).hook = true ∧ o = some k
  | .hook _ (.inp _) _ => False
  | .task k => (c.ser k).copied = true
  | .user (.obj _) => True
  | .user (.buf _) => False
  | .user (.inp j) => c.dcopied j = false

/-- The program's function was told the size of the bytes. -/
def Rel.sized (c : Cfg) : Rel → Prop
  | .hook _ d size => size = (c.bytes d).length
  | _ => True

/-- What has gone out for task `k`. -/
def sentFor (s : S) (k : Nat) : List Wire :=
  s.wire.filter fun x => match x with
    | .data d _ => decide (d = .out k)
    | .eos => false

/-- Nothing is under way: no node is sending or working on a message, and the queues are empty. -/
def Quiet (s : S) : Prop :=
  (∀ w, s.pc w = .idle) ∧ (∀ w, s.hold w = none) ∧ s.spc = .idle ∧
  (∀ w m, s.place m ≠ .chan w) ∧ (∀ w m, s.place m ≠ .inq w)

end FF.Life
