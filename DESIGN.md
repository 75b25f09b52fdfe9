# Formal model of AploCoin/BlockChainTree in Lean 4 — design

## 1. Shape of the model

* `lean/Verif/Model/*`  — the code, function by function. Every definition cites the `/repo` file and lines.
* `lean/Verif/Spec/*`   — small, code-independent specifications (big-endian value, perfect-tree root, abstract ledger …).
* `lean/Verif/Lemmas/*` — helper lemmas.
* `lean/Verif/Props/*`  — one theorem (or a few) per property `Cnn`, with non-vacuity `example`s beside it.

Values
* bytes `UInt8`, byte strings `List UInt8`, `[u8; n]` a length-indexed subtype, `u64` is `UInt64`,
  `primitive_types::U256` a natural number `< 2^256` whose `+ - *` panic on overflow in every build profile (as in the crate).
* `Result`, panics and undefined behaviour are one datatype `Outcome` (`ok | err | panic | ub`); `get_unchecked`
  out of bounds is `ub`, slice indexing out of bounds, `unwrap`, arithmetic overflow are `panic`.
* Build-profile dependent arithmetic (`u64` subtraction in `recalculate_difficulty`) takes the profile as a parameter.
* SHA-256 is a parameter `H : Bytes → Hash` of the whole model. No theorem assumes `H` injective (that is
  impossible); collision resistance enters as "… or here is a collision".
* ECDSA is a parameter record (`pubkey parsing, sign, verify`), with its correctness law stated where used.
* Functions with side effects are `State → Outcome α × State`, so the state left behind by a panic is visible.
* sled: a database is a finite map sorted by key plus the list of states it may recover to after a crash
  (every committed state since the last flush). A sled transaction commits atomically or not at all.
* Files: contents as byte strings; `dump_config` may be interrupted after truncation and after each write.

## 2. Per property: what is modelled, how it is proved

| ids | modelled | proof |
|---|---|---|
| C01 C02 C05 C06 | `dump_u256` as the limb/byte loop with its flag and counter, `load_u256`, `dump/load_biguint` | loop = minimal big-endian digits (induction), digits value lemma |
| C03 | `u256_size`, `bigint_size`, every `get_dump_size` | false at zero: refutation + exact formula for the rest (`_partial`) |
| C04 C12 | slicing and indexing as panicking operations | false: witnesses; exact/sufficient no-panic conditions (`_partial`) |
| C07–C11 C13 C14 C16 | all `dump`/`parse`, `deserialize_main_chain_block`, signing preimage | list algebra over the codec lemmas |
| C15 | `Transaction::new/verify` over an abstract signature scheme, and over secp256k1 (`Model/Secp.lean`) | unfolding under the scheme's correctness law; the law proved for secp256k1 |
| C17 C18 | `build_tree`, `get_proof`, `verify_proof` on the flat array with unchecked accesses | loop invariant: heap array = recursive perfect tree; path induction |
| C19 C20 | same | false for every hash function (sibling swap / AND masking): refutation; partial positive results |
| C21 C22 C26 | `count_leading_zeros`, `check_pow`, `recalculate_fee` | induction on bytes; bit-length spec |
| C23 C24 C25 | `recalculate_difficulty` with both profiles | case analysis on first non-zero byte, induction over timestamp sequences; refutations: 255 fast blocks reach the all-zero difficulty, which one slow block turns into one of 7 leading zeros (C23); `40 00 …` loses its leading zero (C24, difficulties no chain has); release builds wrap (C25) |
| C27–C29 | `validate` of the three block kinds | decision logic; refutations for C28, C29 |
| C30 | emit + validate | refutation with a concrete state |
| C31–C39 C44 C46 | `MainChain`, `DerivativeChain`, `BlockChainTree` as state machines | invariants by induction over operation histories; C36 refuted by a derivative block in the main chain |
| C40 C41 | `emmit_new_main_block`, `summarize`, `rotate_dbs` | step characterisation; C40 refuted (panics on an out-of-order timestamp with overflow checks) |
| C42 C43 | `summarize` leaf encoding | injectivity; refutation for gas-only accounts and for genesis |
| C45 | `hex::encode` | injectivity |
| C47–C57 | ledger calls and `send_transaction` | refinement to `Address → Nat` map, sum lemmas; refutations C49 C50 C54–C57 |
| C58–C66 | disk, crash relation, `MainChain::new`, `BlockChainTree::new`, `flush` | invariants over histories with crashes; refutations C58–C62 C64 C65 |
| C67–C70 | comparator and pool; `BinaryHeap` as the algorithm of the standard library | order laws; heap invariant; refutation C68 |
| C71–C75 | small-step threads over the shared state, one atomic step per lock region / sled operation; sled transactions also cut into steps | invariants over schedules, rely-guarantee; refutations C73 C75 |
| C76 C77 C78 | `SummaryDB` including the eager `from_utf8(..).unwrap()` arguments, as threads | refinement; refutations C77 C78 |
| C79 | `Headers::from_u8` | whole table; refutation (5) |
| C80 | file system as a finite map of paths; any listing order | induction over depth and listing |
| C81 | zstd as an abstract codec | unfolding under the codec law |
| C82 C83 | `summarize`, `get_proof` for absent hashes | extensionality of sorted maps; refutations with partial characterisations |
| C84–C88 | what fees, block contents and nonces are checked against | step characterisations from C40, C52, C53; refutations C84 C85 C87 C88 |
| C89–C93 | calls cut short after any of their effects (I/O error, dropped future) | one-effect step relation closed under sequencing; invariants along it; refutations C90 C91 C93 |
| C94, C95 | coin supply over epochs | supply as a sum over the stored balances; induction over histories; refutation C94 |
| C96–C98 | timestamps, block rate and the set of difficulties of emitted chains | finite invariant of the recalculation; induction over segments; refutation C96 |
| C99, C100 | deadlock freedom; lookups running concurrently with additions | lock ownership invariant over all executions, step bound; chain invariant between the writes of add_block; refutation C100 |
| C101, C102 | `verify_proof` on every proof; the exact language accepted by each parser | fold characterisation; declarative wire grammar, both directions; refutations C101 C102 |
| C103 | linearizability of ledger calls, with real-time order | simulation by the order in which critical sections end |
| C104 | frame of every call: what it cannot change | relation over all states of the trace, part by part |
| C105 | recorded difficulty follows the last block | refuted with SHA-256; invariant over `Life` that it never changes |
| C106, C107 | flushes by several threads, with tokio's last write in the background (`Model/Late.lean`) | position invariant per flushing thread over all executions; refutations with a truncated file and an older height |
| C108–C111 | public keys, secret keys, ECDSA on secp256k1 | the executable arithmetic refines Mathlib's elliptic curves (`Lemmas/Secp.lean`); primality of p and n by Pratt certificates, the order of the base point by kernel computation; discrete logarithms to the base compared in ZMod n |
| C112–C114 | replication, tips, admission of blocks | a chain is determined by the list of blocks added to it (`Lemmas/Replica.lean`); feeding that list to a fresh node reproduces the chain. Histories in which blocks are validated first (`Careful`) keep linked headers; two such chains are compared from the tip downwards |
| C115 | what a call reads | two runs from states that agree on a set of parts, compared moment by moment (`Props/Reads.lean`) |
| C116 | repeated and interrupted opening | a directory left by an attempt differs from the first one at most in entries that opening makes anyway (`Props/Reopen.lean`) |
| C117 | the anchor of a derivative chain | an invariant relating the open chain and its config file at every moment, through crashes (`Props/Anchor.lean`); refuted |
| C118 | the first derivative block | lookups by hash are truthful on nodes flushed before going down (`Props/Anchor.lean`); refuted |
| C119 | emission among threads | histories of the emitter's own steps over the invariant of C100 (`Props/ThreadsLinked.lean`) |
| C120 | one open derivative chain and the node, shared by threads (`Model/ThreadsDeriv.lean`) | the invariant of C100 for any chain behind a lock (`Props/Slot.lean`), once for each of the two chains; the anchor never changes |
| C121 | the two locks of the node and an open derivative chain (`Model/ThreadsDeriv.lean`) | each held lock has one owner whose remaining program gives it back on every path; a bound on the steps of each call |
| C122 | gas database, all calls, crashes | no gas in the database nor in any state its files may hold is kept by every call but `add_gas` |
| C123 | gas database, all calls | each call changes the sum of the database by what it brings in less what it uses up |
| C124 | coin database, all calls | each call changes the sum of the database by what it brings in less what it takes away; `Chain.Holds` gives the height at which emission happens |
| C125 C126 | `rotate_dbs` on disk (`Model/Rotate.lean`, one step per system call) | stages: removing shrinks, copying grows; `copyTree` ends like `copyDirAll` (C80); C126 refuted at the moment the old directory is gone |
| C127 | `Spec.Node`: the whole node as an abstract machine | relation `Matches` (blocks, index of newest digests, books, open chains) kept by every `Op`; questions answered from it |
| C128 | the abstract node of C127 with orderly restarts | `Settled`: after `derivFlush` the files hold all of a chain; `Dormant`: what opening them gives; `restart`: any crash after the flushes reopens to `Node.restarted` |
| C129 | `Before`: what the next derivative block follows, by the answers of the node | failing requests on any state by cases; exact answers from C127 and the invariant `Mined` of the abstract node |
| C130 | `Explains`: an order of the calls and the sequential functions in this order; `EndedFirst` | the order is built along the execution: a call is appended at the step it takes effect, a lookup by hash inserted before the block being added |
| C131 | `Apart`: what the calls must not share; `SameContents`; the sequential functions in an order | the order is built along the execution: a refused transaction takes effect when the coins are read, an accepted one when they are moved; `Beside` relates the shared node, where transactions are stored early and gas is charged late, to the node after the calls that have taken effect |
| C132 | `PowerLoss`, `Powered` (model of the machine); the node's own answers before and after | every state: the empty file written by `dump_config` may be what is found; `Safe` (blocks and transactions in every recoverable state), `Behind` (heights in config files) |
| C133–C135 | the example programs (`Model/Examples.lean`), sequences of runs (`Sessions`); amounts in numbers, blocks as the node returns them | invariant `Ready` of the abstract node of C127 (blocks, coins, gas and the wallet's chain in terms of what was mined and sent); each program step by step on the abstract node, `restart` between programs |
| C136 | moments in the run of the mining example (`Act` trace) and what may be recovered (`Crash`) | the calls of a round as a list of operations (`Stops` of C71), `OnFile` for blocks and config, recovered ledgers are ledgers between two calls |
| C137 | all schedules of all calls on a node (`Work`), states since a flush began (`since`), what may be recovered (`Crash`) | every step makes nothing recoverable but what it leaves (`Logs`, a guarantee of every program); own steps of the flush (`Hist`); the witness by explicit runs with an invariant (`Via`) |
| C138 | an abstract node that remembers what was written out (`Spec.Frail`), killed and started again (`Starts`, `Runs`) | relation `Bears` between the node with all that may be recovered of it and the abstract node (`Log`, `TableLog`), kept by every call; what may be left during a call may be left after it (`Tree.Less`); both directions by induction |
| C139 | bytes stored against gas (`storedBytes`, `overCalls`) | one call at a time, C104 for the calls that store nothing, C123 for the gas; refutation: the call that breaks off |
| C140 | emitted chains, `MeetsPow` | C40 for the refusal at any time; block by block with the exact values of `easier`/`harder` on the difficulties a chain can have (C98) |
| C141 | two `Careful` histories | the bytes hashed for the work begin with the hash of the block below; downwards from there along the links |
| C142 | `Block` getters and `dump` | by kind of block from the layout of the dump (C07–C09) |
| C143 | `verify_proof` against stored blocks | C18 for the stored list (`stored_txs`), associativity of the AND for the forged proof; C42 for accounts |
| C144 | dates in `emmit_new_main_block` | C96 and C140 over later states; C40 for the accepted block |
| C145 | repeated lists in `emmit_new_main_block` | C144 for the second block, reads from the list of blocks |
| C146 | calls of threads cut short (`Model/ThreadsCut.lean`) | discipline of the chain and lock closed under cutting short (`Mindful.cut`, `Tidy.cut`, `Guar.cut`, `Within.cut`); invariant over all schedules with the chains each thread left behind |
| C147 | deaths inside the calls that write the configuration files (`Spec/Torn.lean`) | the moments of a call are the instants of the abstract node or leave a cut file (`moments`); relation `Caught` ties the trees in between to `Bears`; both directions by induction (`befalls_suffers`, `suffers_befalls`) |
| C148 | calls on node and derivative chain cut short (`Model/ThreadsDerivCut.lean`) | the sequential model with faults keeps `Chain.KeepsOf IsDeriv` (`Op.derivExt`); for threads a discipline per lock and chain (`Slot.Mindful`) closed under cutting short for both locks (`mindful_cut`), invariant `Slot.exec_guarded`; histories of single threads for emission and lookups |
| C149 | lives with threads, cut calls and many crashes (`Props/BusyLife.lean`) | `Along` closes the moments of `Model/System.lean` under concurrent work (`cutStart`); invariant `Sturdy` (legible now and on disk, every stored block a main block under its own height, so a stray block left by a cut or killed call is harmless), carried over thread steps by `Chain.Step1` and `Gentle`; `Retained` pins what was flushed across restarts |
| C150 | derivative chains across crashes (`Props/DerivCrash.lean`) | `Spared` are the moments of a life not cut off in the middle of `DerivativeChain::flush` of one owner; invariant `Spry`: the height in the config file is covered by the blocks of every recoverable state, and the open handle by the current ones; `owner_op` reduces every call to opening and adding; the refutation follows `Stuck`, a config file shorter than 96 bytes, through every later moment |
| C151 | derivative chains with threads, cut calls and many crashes (`Props/BusyDeriv.lean`) | `DerivAlong` adds to the moments of C150 the concurrent work of C148 (`dcutStart`); the invariant is that of C150 (`Spry`), carried over thread steps by `Chain.StepOf` and `Softly` (no step but a flush writes the config file or forgets a recoverable state) |
| C152 | derivative chains and linearizability (`Props/ThreadsDerivSerial.lean`) | `Twin` relates the programs of derivative-chain calls to those of main-chain calls (`asNode` puts the derivative chain in the place of the main chain); executions are carried over in both directions (`exec_twin`, `exec_back`), the order comes from C130; calls of other threads on the node are dropped from the log (`keepStep`) |
| C153 | moments in the run of the derivative mining example and what may be recovered (`Props/DerivKill.lean`) | as for C136; `ChainFile`/`OpenFile` for the blocks and the config file of the wallet's chain, frames (C104) for the rest; the harm: `Added`, `flushChain_states`, `since_stuck` of C150 |
| C154 | moments in the run of the sending example and what may be recovered (`Props/SendKill.lean`) | as for C136 and C153; `Posting` (the calls), `Between` (the ledgers between them), `TxNear` (every state of the transactions), `op_ownSame` of C150; the harm: the last moment of `send_transaction`, where the three databases recover independently |
| C155 | power failures and derivative chains (`Model/Power.lean`, `Props/DerivPower.lean`) | config contents during `DerivativeChain::flush` (`MidFlush`), `Banked` kept by every call, `Upto` for heights of all contents since the machine was started |
| C156 | processes that die and a power failure (`Model/Machine.lean`, `Props/Machine.lean`) | `Rides` kept by every effect of every call, `Survives` by deaths and by `new` (`new_main`); `CfgStep` along the effects for the heights of all config files |
| C157 | the moment a power failure takes a database back to (`Props/MachineLedger.lean`) | every effect of every call and of `new` makes nothing recoverable but what it leaves (`op_logged`, `new_logged`); `Dated` along all stages |
| C158 | derivative chains, dead processes and a power failure (`Props/MachineDeriv.lean`) | `Retains` (blocks and config file of the chain; height and anchor if open) kept by every effect of every call, by `new` and by deaths; `Highest` for the config files passed through |
| C159 | many threads, dead processes and a power failure (`Props/MachineThreads.lean`) | `BusyOn` adds the work of threads (`cutStart`) to `PowerOn`; `Dated` of C157 along it, `Logs` and `flush_saves` of C137 for the steps of threads |
| C160 | whatever implements `Transactionable` (`Model/Foreign.lean`, `Props/Foreign.lean`) | the object is the tuple of its answers during the call; `Visits` walks through the call with the stages as invariant |
| C161 | every stored byte is paid for, whatever implements `Transactionable` (`Props/Foreign.lean`) | refuted: no amount, no charge; `C161_amount_partial` from the success case of C160 |
| C162 | whatever objects the node is given (`Props/Foreign.lean`) | `WideOp`: the calls with objects from anywhere; `Piled`: the chain as a list of byte strings, kept by every building block |
| C163 | nothing has undefined behaviour (`Model/Unsafe.lean`, `Props/Unsafe.lean`) | refuted; every function with `unsafe` rewritten with its preconditions and proved equal to the plain one; exact condition for each call; "no difficulty begins with `0xFF`" is kept by every call and crash |
| C164 | no call panics (`Props/Panics.lean`) | refuted; the exact condition for each of the 19 calls on every node across kills and restarts; no reading call and no opening panics |
| C165 | each leading zero bit halves the digests that are enough (`Props/Count.lean`) | proved; counts digests, not nonces |
| C166 | a damaged balance hurts only the calls that name its account (`Props/Damage.lean`) | proved; one open node, main blocks without transactions left out |
| C167 | a node never rereads its history (`Props/Forget.lean`) | proved; one open node, first derivative blocks left out (they do look back) |
| C168 | a flushed restart does not reread the history either (`Props/ForgetRestart.lean`) | proved; clean shutdowns, first derivative blocks left out |
| C169 | derivative chains never reread their history either (`Props/ForgetDeriv.lean`) | proved; one open node, first derivative blocks left out |
| C170 | the summary of an epoch does not look into the balances it commits to (`Props/DamageEpoch.lean`) | proved |
| C171 | damage to the history neither spreads nor heals (`Props/Scars.lean`) | proved; one open node |
| C172 | every refusal has one listed cause, and a refused call has done nothing (`Props/Refusals.lean`) | proved; one thread, no failures of the stores |
| C173 | clients that share nothing do not notice each other (`Props/Clients.lean`) | proved; one call at a time |
| C174 | which calls may be repeated (`Props/Repeats.lean`) | proved; one call at a time |
| C175 | a call cut short by a crash and repeated after the restart (`Props/Redo.lean`) | proved; the main chain and the ledgers |
| C176 | a call on a derivative chain cut short by a crash and repeated after the restart (`Props/RedoDeriv.lean`) | proved |
| C177 | what accepted calls come to does not depend on their order (`Props/Order.lean`) | proved |
| C178 | under every schedule, accounts are what the calls add up to (`Props/ThreadsSum.lean`) | proved |
| C179 | calls that are covered together are accepted under every schedule (`Props/ThreadsCovered.lean`) | proved |
| C180 | exactly which calls are accepted in every order (`Props/AnyOrder.lean`) | proved |
| C181 | calls that are safe in every order are safe under every schedule, and only those (`Props/OrdersSchedules.lean`) | proved; converse for calls between different accounts |
| C182 | exactly what suffices for every order and every schedule, calls to oneself included (`Props/Enough.lean`) | proved |
| C183 | what calls leave behind does not depend on how they were interleaved (`Props/Confluent.lean`) | proved |
| C184 | the replies of concurrent calls tell what they have left behind (`Props/Replies.lean`) | false; proved if no `send_transaction` panics |
| C185 | every schedule leaves what whole calls and cut-off transactions leave (`Props/Cutoffs.lean`) | proved |
| C186 | with gas for all calls, the replies tell what concurrent calls left behind (`Props/Telling.lean`) | proved |
| C187 | with gas for all calls, accounts are what the calls that returned `Ok` add up to (`Props/Settled.lean`) | proved |
| C188 | with coins for all calls, the replies tell what concurrent calls left behind (`Props/TellingCoins.lean`) | proved |
| C189 | with coins for all calls, coins are what the calls that returned `Ok` and the payments that panicked add up to (`Props/SettledCoins.lean`) | proved |

None of the listed properties is "not applicable"; where runtime behaviour (OS, sled internals, thread scheduler, zstd,
secp256k1) carries part of the truth it is a parameter or a relation whose assumed behaviour is listed in §3.

## 3. Trusted base

### 3.1 Checker and axioms

* Lean 4.33.0's kernel, and its elaborator for translating the statements. `Props` files contain no `axiom`, `sorry`,
  `admit`, `native_decide`, `bv_decide`, `implemented_by` or `extern`.
* Every theorem depends at most on `propext`, `Classical.choice` and `Quot.sound` (Lean's own three). Concrete facts are
  checked by `decide +kernel`, that is by evaluation in the kernel.
* Mathlib modules are imported one by one; they add no axioms.

### 3.2 Parameters: what is assumed of the outside world

Nothing here is an axiom: each item is a parameter of the definitions, over which the theorems quantify.

| outside | in the model | what is assumed of it |
|---|---|---|
| SHA-256 (`sha2`) | `Env.sha256 : Bytes → Hash` | it is a function; collisions are never excluded. Refutations give a reason that holds for every such function; where the hypotheses of that reason mention digests, a witness with SHA-256 itself (`Model/Sha256.lean`, FIPS 180-4 evaluated by the kernel) or with any digest is in `Props/Real.lean` (`Cnn_refuted_sha256`, `Cnn_refuted_any`) |
| overflow checks (build profile) | `Env.overflowChecks` | either value |
| secp256k1 | `SigScheme`; in C15 and C108–C111 `Model/Secp.lean` | nothing of the abstract scheme, except in `C15_signed_verifies`, which assumes that signatures made with a key verify under its public key. `Model/Secp.lean` takes libsecp256k1 to compute what SEC 1 and SEC 2 define, to make and accept only signatures with `s` in the lower half, and to find a nonce; which nonce (RFC 6979) is left open |
| zstd | `Zstd` | decoding undoes encoding |
| order of `read_dir` | `Listing` | each name once |
| byte order of the machine | `little : Bool` | either value |
| thread schedule | `Exec` | any interleaving of the steps |
| crash | `Crash` | each database independently recovers some state since its last flush |

### 3.3 Modelled as the library's documented behaviour

* `primitive_types::U256`: numbers below 2^256, `+ - *` panic on overflow in every profile.
* sled: a map ordered by key; a write is atomic; a transaction is atomic and transactions run one at a time (sled's
  global lock); after a crash a prefix of the writes since the last completed flush is recovered; dropping a
  database flushes it.
* `BinaryHeap`: the standard library's algorithm, with swaps for its `Hole`. `HashSet`: a finite set.
* `from_utf8`: Lean core's `validateUTF8`.
* `num_bigint::BigUint`: natural numbers.
* `parking_lot` locks do not poison: after a caught panic the node is usable.

### 3.4 Which code is modelled

All of `src/tools.rs`, `merkletree.rs`, `dump_headers.rs`, `static_values.rs`, `block.rs`, `transaction.rs`, `chain.rs`,
`blockchaintree.rs`, `txpool.rs`, `summary_db.rs`. Function by function; line numbers are in the comments.

The example programs are modelled in `Model/Examples.lean`. They call `check_pow` with three arguments and do not compile at
this commit; they are modelled with the argument they lack, the transactions of the block. Their endless loops are cut after
any number of rounds, the clock is a parameter, what they print is left out.

Not modelled:

* I/O errors of sled and of the file system, except in C89–C93, C146, C148, C149 and C151, where any call may stop after any of its effects: in
  the other properties every access succeeds (files in C80/C81 have "is a directory", "no such directory" and the like,
  but no failing device). An access that fails has no effect of its own.
* Power loss, except in C132 and C155–C159 (`Model/Power.lean`, `Model/Machine.lean`: sled syncs its files when flushed, nothing syncs the config files): in
  the other properties only the process dies, what was given to the operating system stays. `File::write_all` of tokio counts as
  written when it returns, except in C106/C107, where the last write of `dump_config` may be made at any later time.
* In the chain model copying one database in `rotate_dbs` is one atomic step. What is on disk in between is the subject of
  C125/C126 (`Model/Rotate.lean`: one step per system call, a file's copy growing byte by byte); what sled makes of a
  half-copied directory, and writes by the old sled handle into the replaced directory, are not modelled.
* Retries of transaction closures (the closures have no effects).
* Implementors of `Transactionable` and `Block` outside the crate, except in C160–C162; there their methods return or panic
  and do not call the node themselves. The order such items get in the transaction pool is not modelled.
* `usize`/`u32` overflow of lengths: lists have fewer than 2^58 elements.
* The futures' cancellation, except in C89–C93, C146, C148, C149 and C151: elsewhere an `async` call runs to its end, panics or is stopped with the
  whole process.
* Text of error messages, `Debug` output, `errors.rs`.

### 3.5 Tests of the theorems

`seeded/LOG.jsonl` has one line per edit of the model that was tried. `scripts/mutate.py` applies an edit in a scratch
copy, replaces failing proofs by `sorry` until everything builds and reports which theorems of the manifest then depend
on `sorryAx`.

What the log does and does not show:

* A theorem under `theorems_failed` rests on a proof that no longer goes through. That is weaker than being false of the
  edited model: a lemma far below may have failed only because its proof was written for the old definition. An edit low
  in the model therefore "fails" very many theorems, most of them for this reason. Only survival is decisive: a theorem
  that still proves is still true of the edited model.
* So a failure is no evidence that a theorem is tight. `proofs_broken`, in the later entries, names the declarations whose
  own proofs failed.
* 30 entries are controls: edits meant to make no property false. 22 of them broke some proof nevertheless.
* About 600 entries are generated edits ("generated edit" under `claim_broken`). Nobody checked that each makes a claim
  false. For 558 of them the build stopped at the first failures and only those are listed, so they say nothing about
  survivors.
* Entries with the note "no verdict" ended in a timeout or in an edit that broke a definition and not a proof.

### 3.6 Tests of the model

`Props/RepoTests.lean` runs the assertions of the repository's own test suite on the model, with the real digest. They
are tests, not proofs. `tests/tools_test.rs` and the examples call `check_pow` with three arguments and do not compile
against the pinned `src/tools.rs`; the model follows `src`.
