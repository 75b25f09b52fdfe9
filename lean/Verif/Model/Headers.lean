import Verif.Model.Base
/-!
# dump_headers.rs
-/

namespace BCT

/-- dump_headers.rs:4-12 `Headers` (`repr(u8)`). -/
inductive Headers where
  | transaction | token | transactionBlock | derivativeBlock | summarizeBlock | genesisBlock
  deriving DecidableEq, Repr

/-- `header as u8`, dump_headers.rs:6-11. -/
def Headers.toU8 : Headers → UInt8
  | transaction => 0
  | token => 1
  | transactionBlock => 2
  | derivativeBlock => 3
  | summarizeBlock => 4
  | genesisBlock => 5

/-- dump_headers.rs:15-26 `Headers::from_u8`. -/
def Headers.fromU8 (header : UInt8) : Outcome Headers :=
  if header = 0 then .ok .transaction
  else if header = 1 then .ok .token
  else if header = 2 then .ok .transactionBlock
  else if header = 3 then .ok .derivativeBlock
  else if header = 4 then .ok .summarizeBlock
  else .err .headerUnknown

end BCT
