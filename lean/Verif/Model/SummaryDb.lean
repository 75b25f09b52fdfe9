import Verif.Model.Threads
/-!
# summary_db.rs

`SummaryDB` is part of the public interface of the crate, but the tree does not use it. Unlike the tree it reads and
writes in two separate accesses. Its functions are `Prog`s; alone they are run with `Prog.solo` (no step has to wait).
-/

namespace BCT

namespace SummaryDb

/-- `std::str::from_utf8(addr).unwrap()`: panics unless the bytes are UTF-8. The argument of `attach_printable` is
computed also when there is no error to attach it to. -/
def addrText (addr : Address) : Outcome Unit :=
  if (ByteArray.mk addr.val.toArray).validateUTF8 then .ok () else .panic .unwrap

/-- `self.db.get(addr)`. Not modelled: I/O errors. -/
def get (addr : Address) : Prog Db (Option Bytes) := .step some (fun d => .done (.ok (d.get addr.val)))

/-- `self.db.insert(addr, dump)`. -/
def insert (addr : Address) (value : Bytes) : Prog Db Unit :=
  .step (fun d => some (d.insert addr.val value)) (fun _ => .done (.ok ()))

/-- summary_db.rs:44-52 `flush`. -/
def flush : Prog Db Unit := .step (fun d => some d.flush) (fun _ => .done (.ok ()))

/-- summary_db.rs:23-42 `get_funds`. The numbers are written with `dump_u256` and read with `load_biguint`. -/
def getFunds (addr : Address) : Prog Db Nat := do
  match ← get addr with
  | none => pure 0
  | some prev => do
    let res ← .lift ((loadBiguint prev).mapErr .treeGetFunds)
    pure res.1

/-- summary_db.rs:57-117 `decrease_funds`. -/
def decreaseFunds (addr : Address) (funds : U256) : Prog Db Unit := do
  match ← get addr with
  | none => do                                                                     -- :64-70
    .lift (addrText addr)
    .lift (.err .treeDecreaseFunds)
  | some prev => do
    let res ← .lift ((loadU256 prev).mapErr .treeDecreaseFunds)                    -- :72-74
    let previous := res.1
    if previous.val < funds.val then .lift (.err .treeDecreaseFunds)               -- :77-82
    else do
      let previous ← .lift (previous.sub funds)                                    -- :83
      insert addr (dumpU256 previous [])                                           -- :85-95
      flush                                                                        -- :97-105

/-- summary_db.rs:122-205 `add_funds`. -/
def addFunds (addr : Address) (funds : U256) : Prog Db Unit := do
  if funds.val = 0 then pure ()                                                    -- :127-129
  else
    match ← get addr with
    | none => do
      insert addr (dumpU256 funds [])                                              -- :133-142
      .lift (addrText addr)                                                        -- :143-146
      flush                                                                        -- :148-157
      .lift (addrText addr)
    | some prev => do
      let res ← .lift ((loadU256 prev).mapErr .treeAddFunds)                       -- :162-164
      let previous ← .lift (res.1.add funds)                                       -- :166-167
      insert addr (dumpU256 previous [])                                           -- :169-178
      .lift (addrText addr)                                                        -- :179-182
      flush                                                                        -- :184-193
      .lift (addrText addr)

end SummaryDb

end BCT
