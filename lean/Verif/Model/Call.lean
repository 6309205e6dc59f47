import Verif.Model.Method

/-! # Model of `src/call.rs` -/

namespace Bellframe

/-- `struct Call` — src/call.rs:7-15. -/
structure Call where
  notation_ : Char
  location : String
  covers : Nat
  block : AnnotBlock Unit
deriving DecidableEq, Repr

namespace Call

/-- `NOTATION_BOB` — src/call.rs:3. -/
def notationBob : Char := '-'

/-- `NOTATION_SINGLE` — src/call.rs:4. -/
def notationSingle : Char := 's'

/-- `Call::new` — src/call.rs:23-30. -/
def new (notation_ : Char) (location : String) (covers : Nat) (block : AnnotBlock Unit) : Call :=
  ⟨notation_, location, covers, block⟩

/-- `Call::le_bob` — src/call.rs:33-40. -/
def leBob (pn : PnBlock) : Res Call := do
  let block ← pn.toBlockFromRounds ()
  return new notationBob labelLeadEnd pn.len block

/-- `Call::le_single` — src/call.rs:43-50. -/
def leSingle (pn : PnBlock) : Res Call := do
  let block ← pn.toBlockFromRounds ()
  return new notationSingle labelLeadEnd pn.len block

/-- `Call::stage` — src/call.rs:60-62. -/
def stage (c : Call) : Stage := c.block.stage

/-- `Call::effective_stage` — src/call.rs:67-69. -/
def effectiveStage (c : Call) : Res Stage := c.block.effectiveStage

/-- `Call::cover_len` — src/call.rs:73-75. -/
def coverLen (c : Call) : Nat := c.covers

/-- `Call::len` — src/call.rs:79-81. -/
def len (c : Call) : Nat := c.block.len

/-- `Call::transposition` — src/call.rs:98-100. -/
def transposition (c : Call) : Res Row := c.block.leftoverRow

end Call

end Bellframe
