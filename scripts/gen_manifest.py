#!/usr/bin/env python3
"""Writes MANIFEST.json. Status: P proved, R partial (full statement refuted or weakened)."""
import json, os
C = []
def claim(pid, status, theorems, note):
    C.append({"property": pid, "status": {"P": "proved", "R": "partial"}[status],
              "theorems": ["BCT.Props." + t for t in theorems.split()], "note": note})

claim("C01", "P", "C01_u256_roundtrip", "")
claim("C02", "P", "C02_u256_minimal C02_u256_prefix_free", "")
claim("C03", "R", "C03_refuted_u256 C03_u256_size_partial C03_refuted C03_dump_sizes_partial",
      "False of the code: a zero is announced one byte too long. Exact formula proved for every object.")
claim("C04", "R", "C04_refuted C04_load_safe_partial C04_load_ok",
      "False of the code: the loaders panic on the empty string and on a number cut one byte short. The exact set of panicking inputs is proved.")
claim("C05", "P", "C05_biguint_dump_total C05_biguint_roundtrip", "")
claim("C06", "P", "C06_formats_agree", "")
claim("C07", "P", "C07_header_roundtrip", "")
claim("C08", "R", "C08_refuted C08_txblock_roundtrip_partial",
      "False at height zero; proved to hold exactly at the other heights.")
claim("C09", "P", "C09_sum_deriv_roundtrip", "")
claim("C10", "R", "C10_refuted C10_transaction_roundtrip_exact C10_transaction_roundtrip_partial",
      "An empty payload is parsed back as a missing one; everything else round-trips.")
claim("C11", "R", "C11_refuted C11_main_block_read_back_partial",
      "False for transaction blocks of height zero only.")
claim("C12", "R", "C12_refuted C12_header_safe_partial C12_transaction_safe_partial C12_txblock_safe_partial C12_stored_safe_partial",
      "False of the code for each parser; the exact set of panicking inputs is proved.")
claim("C13", "P", "C13_dump_injective C13_hash_collision", "")
claim("C14", "P", "C14_signature_covers_fields C14_sign_verify_same_bytes C14_no_block_signed", "")
claim("C15", "P", "C15_secp256k1 C15_verdict_is_ecdsa C15_signed_verifies C15_bad_key C15_verdict_depends C15_verify_iff",
      "With secp256k1 as SEC 1 and SEC 2 define it, for every choice of nonces; the primality of p and n, the group law and the order of the base point are proved. Also for any signature scheme under its correctness law.")
claim("C16", "P", "C16_hash_of_dump C16_hash_survives_wire", "")
claim("C17", "P", "C17_merkle_root C17_empty_root", "")
claim("C18", "P", "C18_proof_complete", "")
claim("C19", "R", "C19_refuted C19_single_leaf_partial C19_pairs_partial",
      "False of the code for every hash function: children are combined with bitwise AND before hashing, so the root ignores order and masked bits. Proved: the root is determined by, and barring an exhibited collision or masking determines, the ANDs of the pairs of sibling leaves.")
claim("C20", "R", "C20_refuted C20_masked_bits_partial C20_levels_partial C20_single_leaf_partial",
      "False of the code for every hash function: a proof of one leaf also verifies other values. Proved: which bits are guaranteed for proofs of any length; full soundness for the single-leaf tree.")
claim("C21", "P", "C21_leading_zeros", "")
claim("C22", "P", "C22_check_pow C22_monotone", "")
claim("C23", "R", "C23_refuted C23_one_bit_partial",
      "False of the code: 255 fast blocks in a row lead to the all-zero difficulty, which the next slow block turns into one with 7 leading zeros. Proved for every chain that never gets there.")
claim("C24", "R", "C24_refuted C24_min_one_bit_partial C24_chain",
      "False for arbitrary difficulties; proved for every in-order timestamp sequence from the initial difficulty.")
claim("C25", "R", "C25_refuted C25_out_of_order_partial C25_release_wraps_partial",
      "False of the code: an out-of-order timestamp panics with overflow checks and wraps around without.")
claim("C26", "P", "C26_fee C26_monotone C26_range", "")
claim("C27", "P", "C27_txblock_validate C27_sumblock_validate C27_no_predecessor C27_verify_block", "")
claim("C28", "R", "C28_refuted C28_refuted_sha256 C28_pinned_partial",
      "False of the code: validation ignores height, fee and founder. What it does pin down is proved.")
claim("C29", "R", "C29_refuted C29_never_valid C29_validate_partial",
      "False of the code: a derivative block with a predecessor is either rejected or makes the node panic.")
claim("C31", "P", "C31_add_block C31_add_block_derivative C31_add_new_block C31_at_the_top", "")
claim("C32", "P", "C32_contiguous C32_contiguous_derivative", "")
claim("C33", "P", "C33_never_lost C33_never_lost_derivative C33_accepted_stays", "")
claim("C34", "P", "C34_find_by_hash C34_find_by_hash_derivative", "")
claim("C35", "P", "C35_last_is_newest C35_last_stays C35_emitted_is_last C35_last_never_fails C35_last_derivative", "")
claim("C36", "R", "C36_refuted C36_read_back_partial",
      "False of the code: every derivative block of the right height is accepted onto the main chain and cannot be read back. Proved for the two main-chain kinds.")
claim("C37", "P", "C37_fresh_node", "")
claim("C46", "P", "C46_found_by_hash C46_keyed", "")
claim("C47", "P", "C47_readable C47_coin_call C47_gas_call C47_history C47_start", "")
claim("C48", "P", "C48_transfers_conserve C48_sum_exists", "")
claim("C49", "R", "C49_refuted C49_self_transfer_mints C49_gas_conserved_partial",
      "False of the code: a gas transfer to oneself mints the amount. Proved for two different accounts.")
claim("C50", "R", "C50_refuted C50_no_overspending_partial",
      "False of the code: a coin transfer to oneself reports success whatever the balance. Balances never change; proved in full for every other call.")
claim("C51", "P", "C51_funded_transfer", "")
claim("C52", "P", "C52_effect", "")
claim("C53", "P", "C53_admission", "")
claim("C54", "R", "C54_refuted C54_all_or_nothing_partial",
      "False of the code: when the receiver's balance overflows the call panics after the transaction has been stored. Proved for every other outcome.")
claim("C55", "R", "C55_refuted C55_store_once_partial",
      "False of the code: an affordable transaction sent twice moves its coins twice. The store keeps it once.")
claim("C56", "R", "C56_refuted C56_only_sender_pays_partial",
      "False of the code: the signature is never checked, the outcome does not depend on it. Proved: nobody but the named sender loses coins.")
claim("C57", "R", "C57_refuted C57_gas_charged_partial",
      "False for a zero amount, whose dump is announced one byte too long. Exact charge proved for every transaction.")
claim("C30", "R", "C30_refuted C30_refuted_sha256 C30_validates_iff_partial",
      "False of the code: emitting checks the nonce against the previous block's hash, validating against the Merkle root. Proved: every other clause of the validator holds, and the block validates iff the nonce also meets the other rule.")
claim("C38", "P", "C38_hash_linked", "Heights below the last representable one.")
claim("C39", "P", "C39_kinds", "")
claim("C40", "R", "C40_refuted C40_refuted_sha256 C40_no_side_effects_partial C40_exact_partial",
      "False with overflow checks: a timestamp before that of the last block panics. Proved for all histories: no failing call has an effect, and bad proof of work gets its error; on emitted chains with ordered timestamps or without overflow checks, all of it.")
claim("C41", "P", "C41_epoch", "")
claim("C42", "R", "C42_refuted C42_leaves_partial",
      "False of the code: gas of an account without a coin entry is not committed to. Proved: leaves determine accounts and every coin holder has one.")
claim("C43", "R", "C43_refuted C43_refuted_sha256 C43_genesis_text_partial",
      "False of the code: the genesis block uses a textual format. Proved: what it does commit to.")
claim("C44", "P", "C44_anchored_and_linked C44_isolation", "")
claim("C45", "P", "C45_directories C45_directory_names", "")
claim("C58", "R", "C58_refuted C58_flushed_restart_partial C58_flushed_close_partial",
      "False of the code: at height 1 every restart resets the root account's balance. Proved: everything else is kept.")
claim("C59", "R", "C59_refuted C59_flushed_derivative_partial",
      "False of the code: BlockChainTree::flush does not flush derivative chains. Proved: a derivative chain flushed through its own handle is kept.")
claim("C60", "R", "C60_refuted C60_restart_partial",
      "False of the code: at height 1 every restart gives the root account all initial coins again. Proved: exactly what a restart does to the sum.")
claim("C61", "R", "C61_refuted C61_flushed_blocks_partial",
      "False of the code: blocks accepted after the last flush are lost even by a clean shutdown. Proved: flushed blocks survive any later stop.")
claim("C62", "R", "C62_refuted C62_refuted_sha256 C62_truthful_partial",
      "False of the code: a stale hash entry answers with another block after a restart without flush. Proved for nodes always flushed before going down.")
claim("C63", "P", "C63_prefix_since_flush C63_prefix_since_open C63_while_opening C63_coins_survive", "")
claim("C64", "R", "C64_refuted C64_opens_iff_partial C64_opens_partial",
      "False of the code: a crash while the config file is rewritten leaves a directory that can never be opened. Proved for all other points.")
claim("C65", "R", "C65_refuted C65_tip_partial C65_after_crash_partial",
      "False of the code: the config file is written before the blocks are flushed. Proved for crashes at all points outside config-writing calls.")
claim("C66", "P", "C66_open_node C66_on_disk C66_readable", "")
claim("C67", "P", "C67_total_order", "For both byte orders of the machine (transmute to [u64; 4]).")
claim("C68", "R", "C68_refuted C68_refuted_sha256 C68_consistency_partial",
      "False of the code for transactions: == compares only timestamps, cmp also hashes. Proved for blocks, and for transactions of different timestamps or the same hash.")
claim("C69", "P", "C69_pool_set", "The standard library's binary heap is modelled as its algorithm, not as its contract.")
claim("C70", "P", "C70_oldest_first", "")
claim("C79", "R", "C79_refuted C79_headers_partial",
      "False of the code: from_u8 rejects 5, the value of GenesisBlock. Proved for all other headers and bytes.")
claim("C71", "P", "C71_nothing_lost C71_deposits C71_quiescent C71_no_deadlock C71_any_order",
      "A deposit that would exceed 256 bits panics and changes nothing; the sum over all calls is stated for amounts that fit.")
claim("C74", "P", "C74_exactly_one C74_at_most_one C74_no_deadlock C74_anyone_can_win",
      "For heights below 2^256 - 1.")
claim("C72", "P", "C72_conserved", "")
claim("C73", "R", "C73_refuted C73_charged_partial",
      "False of the code: two transactions of one sender can both pass the gas check before either pays. Proved when every address can pay the gas of all transactions it sends at once.")
claim("C75", "R", "C75_refuted C75_refuted_any C75_failed_emit_partial",
      "False of the code: at the end of an epoch the databases are rotated before the block is added, so an emission that loses the race has ended the epoch without a summarize block. Proved: every other failed emission, and every emission with transactions, leaves balances, gas and snapshots alone.")
claim("C76", "P", "C76_get_funds C76_decrease",
      "An add_funds call that panics because the address is not UTF-8 has been made nevertheless (C77).")
claim("C77", "R", "C77_refuted C77_no_panic_partial",
      "False of the code: the messages of errors that did not happen are formatted, which panics unless the 33 address bytes are UTF-8. Proved: no panic for addresses that are UTF-8 and sums below 2^256, nor for decrease_funds of a known address.")
claim("C78", "R", "C78_refuted C78_bounds_partial",
      "False of the code: add_funds reads and writes in two accesses, so one of two concurrent deposits can be lost. Proved: never more than the sum, never less than before, and exact for addresses only one thread adds to.")
claim("C80", "P", "C80_copy C80_exact",
      "For directories neither of which is inside the other, without symbolic links; the order of listing is arbitrary. A name that is a file on one side and a directory on the other makes it fail.")
claim("C81", "P", "C81_compress C81_decompress", "zstd is any codec whose decoder undoes its encoder.")
claim("C82", "R", "C82_refuted C82_refuted_sha256 C82_balances_partial",
      "False of the code: an address with a stored zero balance is a leaf, one without an entry is not. Proved when the same addresses have entries.")
claim("C83", "R", "C83_refuted C83_last_leaf_partial C83_levels_partial",
      "False of the code: get_proof answers for the last leaf instead, and as sibling pairs are combined with AND this can verify for the absent hash. Proved: what is returned, that it does not verify for one-leaf trees, and for trees of any size what has to coincide for it to verify.")
claim("C84", "R", "C84_refuted C84_threshold_partial",
      "False of the code: the fee is only compared with the balance. Proved: sender needs amount plus fee, pays the amount, nothing else moves.")
claim("C85", "R", "C85_refuted C85_refuted_sha256 C85_as_given_partial",
      "False of the code: neither membership nor repetition is checked. Proved: the block lists exactly what the caller gave.")
claim("C86", "P", "C86_never_lost", "The alternative is an explicit pair of byte strings with the same digest.")
claim("C87", "R", "C87_refuted C87_refuted_sha256 C87_covered_partial",
      "False of the code: check_pow hashes previous hash, Merkle root and nonce only. Proved: these three are determined by the hashed bytes and are those of the block.")
claim("C88", "R", "C88_refuted C88_refuted_sha256 C88_one_chain_partial",
      "False of the code: one nonce starts the derivative chains of all owners. Proved within one chain, barring two stored blocks with the same hash.")
claim("C89", "P", "C89_readable C89_never_lost", "A call that is cut short leaves one of the states it passes through; sled accesses and sled transactions are atomic.")
claim("C90", "R", "C90_refuted C90_steps_partial",
      "False of the code: coins and gas are two sled transactions. Proved: the transaction is stored first, then the coins move as a whole, then the gas is charged as a whole; no coin is lost.")
claim("C91", "R", "C91_refuted C91_retry_partial",
      "False of the code: find_raw_by_height answers for the chain's own height, at which the cut addition has stored its block. Proved: lookups below the height, balances and transactions are unaffected, and a retry succeeds.")
claim("C92", "P", "C92_intact C92_never_lost", "While the node runs; restarts are in C61 and C65.")
claim("C93", "R", "C93_refuted C93_refuted_sha256 C93_accepted_partial",
      "False of the code: the hash of a block whose addition was cut short leads to the block added in its place. Proved: lookups do not fail, and accepted blocks are found, barring an explicit collision.")
claim("C94", "R", "C94_refuted C94_refuted_any C94_exact_partial",
      "False of the code: the emission replaces what the root account holds. Proved: the total changes by the emission less the root account's balance.")
claim("C95", "P", "C95_supply C95_no_overflow", "While the node runs; a restart at height 1 writes the root balance again (C60).")
claim("C96", "R", "C96_refuted C96_refuted_sha256 C96_in_order_partial",
      "False of builds without overflow checks, where any timestamp is accepted. Proved for builds with overflow checks.")
claim("C97", "P", "C97_rate", "")
claim("C98", "P", "C98_values C98_all_occur", "")
claim("C99", "P", "C99_no_deadlock C99_bounded C99_all_end C99_lock_released",
      "At most 27 steps per call. Locks inside the storage engine and the summary database are atomic in the model.")
claim("C100", "R", "C100_refuted C100_lookup_partial",
      "False of the code: between the writes of add_block the block is found by height and not by hash. Proved: every single lookup answers, correctly with respect to the moments at which it began and ended.")
claim("C101", "R", "C101_refuted C101_answer_partial",
      "False of the code: the empty proof, which is what get_proof gives for a tree without leaves once the root is taken off, panics. Proved for all other proofs, exactly.")
claim("C102", "R", "C102_refuted C102_exact_partial C102_unique_partial",
      "False of the code: leading zeros of numbers, and bytes after blocks, are accepted. Proved: for each parser the exact set of byte strings that parse to a given object.")
claim("C103", "P", "C103_linearizable C103_quiescent C103_self_transfer",
      "Transfers of coins to oneself take no step on the database (C103_self_transfer); transfers of gas to oneself create gas (C49) and are part of the order. One sled transaction at a time is part of the model.")
claim("C104", "P", "C104_frame", "")
claim("C105", "R", "C105_refuted C105_constant_partial",
      "False of the code: the difficulty field is never updated. Proved: in the whole life of a node every recorded difficulty is that of genesis. Emission and validation take the difficulty from the last block, so nothing else depends on it.")
claim("C106", "R", "C106_refuted C106_only_hole_partial",
      "False of the code: the last write of a flush that has returned may land in the file the next flush has truncated; the config then begins with zeros and the node starts over. Proved: nothing else can go wrong, whatever the threads do, and with one flush at most nothing does.")
claim("C107", "R", "C107_refuted C107_settled_partial",
      "False of the code: the last write of the config file may be pending when flush returns (the node then never opens again after a crash), and overlapping flushes may write an older height. Proved: durable if no flush was in progress when it began and all flushes, background writes included, have ended.")
claim("C108", "P", "C108_one_key_one_account C108_secret_keys", "")
claim("C109", "P", "C109_published_root_key C109_only_key", "")
claim("C110", "R", "C110_refuted C110_at_most_eight_partial",
      "False of ECDSA for every key and signature: the mirrored point has the same first coordinate. Proved: at most eight digests per key and signature.")
claim("C111", "R", "C111_refuted C111_first_half_partial",
      "False for every transaction: the signer can use another nonce. Proved: the mirrored signature is refused, and the first half fixes the second up to the rare two points with one first coordinate modulo n.")
claim("C112", "R", "C112_refuted C112_same_chain_partial",
      "False of the code: add_new_block stores blocks and transactions and leaves the balances alone, so every replica has the balances of a fresh node. Proved: the blocks to hand over are determined by the node, all are accepted, and every question about blocks is answered alike.")
claim("C113", "R", "C113_refuted C113_tip_commits_partial",
      "False of nodes that are handed blocks: add_block does not check the previous hash, so two nodes may share a tip and differ below. Proved for nodes that emit their blocks or validate those they are handed.")
claim("C114", "R", "C114_refuted C114_callers_validate_partial",
      "False of the code for every node: add_block looks at the height only, and a block that points elsewhere becomes the last block. Proved: exactly the height is checked, and callers that validate first keep a hash-linked chain.")
claim("C115", "P", "C115_depends C115_run",
      "Two states that agree on the parts a call may read (and on any further parts) give the same outcome and keep agreeing at every moment of the call; lists of calls likewise for states that differ in the write-only parts.")
claim("C116", "P", "C116_open_again", "For all directories, reachable or not.")
claim("C117", "R", "C117_refuted C117_refuted_sha256 C117_running_partial C117_flushed_partial C117_first_opened",
      "False of the code: the anchor of a chain that was opened but never flushed is forgotten when the node goes down, and the chain is anchored elsewhere when opened next. Proved while the node runs, and for ever once the chain has a config file.")
claim("C118", "R", "C118_refuted C118_refuted_sha256 C118_first_points_at_anchor_partial",
      "False of the code: after a restart without flush the anchor's hash can find another block of the main chain, and the first derivative block points at that one. Proved for nodes always flushed before they go down.")
claim("C119", "P", "C119_emitted_amid_threads", "For every schedule of an emission among any number of other calls; the height bound keeps 256-bit heights from running out.")
claim("C120", "P", "C120_derivative_amid_threads", "For every schedule of an emission on an open derivative chain among any number of other calls on it and on the node; the bounds keep 256-bit heights from running out. emitDerivative_alone: the program run alone is the sequential function.")
claim("C121", "P", "C121_no_deadlock C121_all_end C121_locks_released", "For every schedule of any number of calls on the node and one open derivative chain, whose two locks are modelled apart; proved from an ownership invariant: each lock that is held has exactly one owner and the program left to its owner gives it back on every path without waiting for the other lock.")
claim("C122", "P", "C122_no_gas_no_transactions", "Over LifeWith: all histories with crashes at any moment in which add_gas is not called. The example shows an account rich in coins whose transaction is refused.")
claim("C123", "P", "C123_gas_books C123_granted", "An exact equation, in which the amounts of gas transfers to oneself count as gas brought in, because send_gas creates them (C49). C123_granted: without such transfers everything was granted.")
claim("C124", "P", "C124_coin_books", "An exact equation over all histories; what set_amount and the emission overwrite counts as taken away (C94: the root account's coins are lost). The example is the end of an epoch.")
claim("C125", "P", "C125_rotated", "")
claim("C126", "R", "C126_refuted C126_halfway_partial", "False: the old directory is removed before the copy is made, so for every node there is a moment at which no old balances are on disk at all (C126_refuted), and the copy is made file by file in place. Proved: at every moment each old directory holds only unchanged things of before, or only things of the current directory (files possibly truncated), never a mixture.")
claim("C127", "P", "C127_same_replies C127_same_answers C127_same_blocks",
      "A refinement: Spec.Node (Verif/Spec/Node.lean) gives the reply and the effect of each of the 19 calls and the answer to each of 17 questions without databases, indices or encodings; the relation Matches is kept by every call. Sequences of at least 2^256 - 1 calls, which could bring a height to the end of U256, are excluded. Restarts and failing disk operations are not part of this statement (see C58 to C66 and C75).")
claim("C128", "P", "C128_restarts_same_replies C128_restarts_same_answers C128_events_happen",
      "Lives: calls and orderly restarts with any disk allowed by Crash after the flushes. Tidy: every open derivative chain is among those flushed. What happens without the flushes is the subject of C59, C61, C62, C64, C65. C128_events_happen shows that every list of events can happen.")
claim("C129", "R", "C129_refuted C129_only_opens_partial C129_exact_partial", "False of the code: a request refused for lack of work has already opened the owner's chain and so anchored it at the present last main block; anyone can thus fix where another owner's chain begins, and that owner's work for a later block is then refused. Proved: a failing request does exactly what opening the chain does, nothing if it was open (any state); on nodes whose blocks were all mined, requests are granted exactly if the nonce has enough work (time not before that of the block to follow, or no overflow checks).")
claim("C130", "R", "C130_refuted C130_serializable_partial", "False of the code: a block being added is found by height before it is found by hash. Proved: there always is such an order, with the same answers and the same final state, and it respects time but for one case: a lookup by hash may come before calls, other than lookups by hash and adding blocks, that had ended when it began. Heights below 2^256 less the number of threads; one sled transaction is one step; flushes, emissions and send_transaction, which make several changes without a lock, are in C73, C75, C106.")
claim("C131", "P", "C131_linearizable C131_one_sender", "Also at every moment before the calls have ended. Same contents: all but what a crash may leave of transactions and gas, which depends on the order of writes. C131_one_sender: with two transactions of one sender there may be no such order. Adding blocks at the same time, which changes the fee, is not included.")
claim("C132", "R", "C132_refuted C132_databases_partial C132_last_config_partial C132_no_higher", "False: dump_config does not sync the config file. From every state, a power failure after flush has returned can leave a directory that cannot be opened, and on the first run one that opens at height 1 with the root account full again. Proved: the databases keep every flushed block and transaction; with a whole config file the node opens at its height and returns the flushed blocks up to it; with the last config file nothing is lost; the height is never above the one before the failure.")
claim("C133", "P", "C133_mining_example some_sessions", "Sessions of the three example programs (Model/Examples.lean), with any crash after the last flush of each. some_sessions shows a sequence of all three programs.")
claim("C134", "P", "C134_derivative_example some_sessions", "The derivative chain is the wallet's own, found again through its config file by each run.")
claim("C135", "P", "C135_sending_example some_sessions", "Exact: success if and only if the condition holds, a panic otherwise.")
claim("C136", "R", "C136_refuted C136_off_by_one_partial", "C136_refuted: for every block not ending an epoch, after every sequence of programs, there are moments and recovered states with the payment but no block, the block but no payment, and no start at all. C136_off_by_one_partial: at every moment what was flushed is kept, and both are at most one block ahead. Missing: that they agree.")
claim("C137", "R", "C137_refuted C137_each_partial C137_unflushed C137_coins", "C137_refuted: in every state in which a transaction can be sent, a schedule and a crash after which its gas is charged and its coins are not moved, which was so at no moment. C137_each_partial: each database is what it was at some moment since the flush began. C137_unflushed: without a flush, it is what could be found at the start or what it was since. C137_coins: the sum of all coins found is what it was. Missing: that it is the same moment for all databases.")
claim("C138", "P", "C138_killed_node C138_a_case", "C138_killed_node: what can happen to the node, with the replies and all later answers, is exactly what can happen to the abstract node. Deaths inside a flush or inside the call that ends an epoch are not in it: they can leave a configuration file that cannot be read or that counts blocks that are not there (C64, C65, C132); C147 covers them. C138_a_case: a payment and a mined block, then death: the payment may be there or not, the height is 1, and the lost block is found at height 1.")
claim("C139", "R", "C139_refuted C139_storage_paid_partial", "False of the code: sending to a receiver whose balance would overflow stores the transaction, takes no gas and can be repeated. Proved: as long as there are fewer than 2^256 coins the bound holds, and from any state what is stored is paid for by accepted transactions.")
claim("C140", "R", "C140_refuted C140_relief_partial C140_rise_partial", "False of the code: the nonce is checked against the difficulty recorded in the last block, whatever the time of the new one, so waiting never helps. Proved: how blocks move the difficulty, down one bit for each recorded more than 600 seconds after the last (to one leading zero bit, where it stays), up one bit for each recorded less than 600 seconds after it (to the all-zero difficulty).")
claim("C141", "P", "C141_work_binds C141_branches", "Barring two stored blocks with the same hash. The work of the first block that differs can be shared (C87): it covers neither founder nor timestamp.")
claim("C142", "P", "C142_getters", "All three kinds of block.")
claim("C143", "R", "C143_refuted C143_refuted_sha256 C143_light_partial", "False of the code for every hash function and every chain: a block that lists x has an accepted proof for every hash that covers the bits of x, so every block proves the hash with all bits set. Proved: every listed transaction, and at the end of an epoch every account with coins, has a proof; what the last step of an accepted proof must combine; for blocks of one transaction and proofs of one step the hash covers the bits of the transaction.")
claim("C144", "R", "C144_refuted C144_next_partial", "False of builds with overflow checks: dates are not compared with the clock, so one block dated in the future makes every emission of an earlier date fail from then on, and one dated at the end of time (2^64-1) leaves a chain whose difficulty rises with every block to 256 zero bits. Proved: the next block can be emitted by everyone in builds without overflow checks, and by those whose clock has passed the date of the last block in the others.")
claim("C145", "R", "C145_refuted C145_no_effect_partial", "False of the code: the list of any block may be emitted again as the next block, and both are stored. Proved: being listed changes no balance, no gas and no stored transaction, so a transaction listed twice has been paid once.")
claim("C146", "P", "C146_no_deadlock C146_intact C146_stores C146_coins C146_lookup C146_accepted", "The lock of a call cut short is given back when its guard is dropped (Model/ThreadsCut.lean). The sum of coin balances is only kept by the calls that do not mint (C146_coins is for the calls of SharedCall: sending, flushing, main chain handles).")
claim("C147", "P", "C147_killed_writing C147_otherwise C147_a_case C147_cut_case C147_torn_case", "C147_killed_writing is an equivalence: whatever whole files can lead to the abstract node allows, and the reverse. C147_otherwise describes the other files. The cases: a block kept while the payment and the block's digest are lost; an empty configuration file that no start survives; a height that counts a missing first block.")
claim("C148", "P", "C148_history C148_later C148_no_deadlock C148_intact C148_accepted C148_emitted C148_lookup", "One derivative chain is shared by the threads besides the node (Model/ThreadsDerivCut.lean: the guards held are given back in the end of the cut call). What the first block of a derivative chain is built on is left out of C148_emitted.")
claim("C149", "P", "C149_opens C149_readable C149_flushed C149_accepted C149_stores", "Crashes in the middle of the calls that write the config file (flush, the summarize block's emission) are left out of these lives: C64 and C65 show what goes wrong there.")
claim("C150", "R", "C150_refuted C150_opens_partial C150_open_partial C150_flushed_partial", "Refuted for every owner and hash function: stopped in the middle of DerivativeChain::flush, after the config file was truncated, the chain can never be opened again, whatever is done later; stopped after the config file was written but before the blocks were, the chain opens with a height of one and no block, and no derivative block can be emitted. Proved for all lives not stopped in the middle of a flush of that derivative chain: everything else, the main chain's flushes included, may be cut off anywhere.")
claim("C151", "P", "C151_opens C151_readable C151_flushed C151_accepted C151_emitted", "Joins C148 and C150 over one whole history. That a flush of the derivative chain is not killed in its middle and not made while other threads work on the chain is part of the statement; killed in its middle, the chain is lost for good (C150_refuted).")
claim("C152", "R", "C152_refuted C152_serializable_partial", "False of the code: a block being added is found by height before it is found by hash. Proved: there always is such an order, with the same answers and the same final chain, and it respects time but for one case: a lookup by hash may come before lookups of other kinds that had ended when it began. Other threads may make any calls on the node meanwhile. Heights below 2^256 less the number of threads; flushes and emissions, which make several changes without a lock, are in C120 and C151.")
claim("C153", "R", "C153_refuted C153_off_by_one_partial", "C153_refuted: for every block, after every sequence of programs, there are moments and recovered states with the payment but no block, with the block but no payment, and with a chain that cannot be opened whatever is called and however often the node is started again. C153_off_by_one_partial: at every moment what was flushed is kept, main chain and coins are untouched, chain and gas are each at most one block ahead. Missing: that they agree.")
claim("C154", "R", "C154_refuted C154_each_alone_partial", "C154_refuted: after every sequence of programs after which the example works there is a moment with all eight combinations of transaction stored, amount taken and gas taken among the states that may be recovered. C154_each_alone_partial: at every moment what was flushed is kept, each of the three is as before or as after, and nothing else has changed. Missing: that they agree.")
claim("C155", "R", "C155_refuted C155_databases_partial C155_no_higher", "C155_refuted: from every state of every life, after every flush that has returned, both kinds of loss are possible. C155_databases_partial: what is kept by the databases, and what opens with config files that can be read. C155_no_higher: never longer than before. Missing: config files that are missing, cut short or older than the flush.")
claim("C156", "P", "C156_kept C156_no_higher", "Model/Machine.lean: processes that die (each database found in one state it may be recovered to, with the earlier ones still possible after a power failure) and machines that stop. C156_kept: what is kept. C156_no_higher: never longer than before.")
claim("C157", "P", "C157_moment C157_deriv C157_balances", "C157_moment: each of the seven databases is that of one moment since the flush. C157_deriv: the two databases of a derivative chain. C157_balances: what the node that opens afterwards answers.")
claim("C158", "P", "C158_kept C158_open C158_no_higher", "C158_kept: after the power failure. C158_open: until it. C158_no_higher: any machine, processes dying and power failing at any points before.")
claim("C159", "P", "C159_moment C159_alone C159_balances", "C159_moment: each of the seven databases is that of one moment since the flush began. C159_alone: the same when the flush was made alone. C159_balances: what the node that opens afterwards answers.")
claim("C160", "P", "C160_own C160_effect C160_conserved", "C160_effect: the stages the call passes through, in terms of the object's answers, and what success means. C160_conserved: sums of coins and gas, who can lose. C160_own: the crate's own transactions are a case.")
claim("C161", "R", "C161_refuted C161_amount_partial", "False: an object without an amount (get_amount() = None, which the trait allows) passes the gas check and is stored, but the gas is subtracted only inside `if let Some(amount)` (blockchaintree.rs:507-512), so any number of byte strings is stored for nothing. C161_amount_partial: with an amount the named gas payer is charged exactly.")
claim("C162", "P", "C162_own C162_chain C162_by_hash C162_stores C162_added", "C162_chain: no gaps, append-only. C162_by_hash: the hash index. C162_stores: transactions and ledgers. C162_added: when a block is accepted and what follows. C162_own: the crate's own objects are a case.")
claim("C163", "R", "C163_refuted C163_sites C163_data C163_calls_partial C163_checked_partial C163_soft_partial", "False in release builds: add_block accepts a block whose difficulty begins with 0xFF, and the next emission more than 600 s later writes at index usize::MAX of the difficulty through get_unchecked_mut (tools.rs:237-239); validate against such a block does the same. C163_sites: all other unsafe operations, written with their preconditions, never miss one. C163_data: parsing, trees, proofs, reads, opening. C163_calls_partial: for every state the exact condition for every call and for validate; objects from outside. C163_checked_partial: never with overflow checks. C163_soft_partial: never, across crashes, on a node that was not handed such a block.")
claim("C164", "R", "C164_refuted C164_calls_partial C164_reads_partial C164_open_partial C164_run_partial", "False: sub_amount above the balance panics on every node (the transaction's abort is unwrapped), and a node killed during a flush can open without its last block, after which every emission of a main block and every first use of a derivative chain panics. C164_calls_partial: the exact condition, for each of the 19 calls, on every node across kills and restarts. C164_reads_partial: no reading call panics on such a node. C164_open_partial: opening never panics, whatever the directory holds. C164_run_partial: on a node that was never killed only the clock makes a main emission panic.")
claim("C165", "P", "C165_count C165_halving", "Counts digests, not nonces: how often a nonce succeeds depends on SHA-256, about which nothing is assumed. Chains that reach the all-zero difficulty are left out of the statement because the step is not one bit there (C23_refuted).")
claim("C166", "P", "C166_local C166_damaged", "The calls are those of Op, run one after the other on an open node; restarts, crashes and threads are not part of the statement. Main blocks without transactions are left out at every height, although only the summary of an epoch looks at the accounts. C166_damaged shows for reading and depositing, not for each call left out, that the damage matters.")
claim("C167", "P", "C167_present C167_forget C167_lookback", "The calls are those of Op on an open node; restarts, crashes and threads are not part of the statement, and looking a block or transaction up is not one of the calls. Op drops the emitted block, but the last block is part of what agrees afterwards.")
claim("C168", "P", "C168_turns C168_opens C168_unflushed", "Clean shutdowns only: crashes are not part of the statement. First derivative blocks of an owner are left out as in C167.")
claim("C169", "P", "C169_present C169_forget", "Calls on an open node: restarts, crashes and threads are not part of the statement (a restart opens derivative chains at the height in their own config file, which Tree.flush does not write), and looking a block up is not one of the calls.")
claim("C170", "P", "C170_unseen C170_carried C170_accepted", "C170_accepted uses a digest that meets every difficulty and damages one account of a reachable node by hand. C170_unseen does not compare the index of the blocks by hash nor the databases of the last epoch; what the latter hold is C170_carried.")
claim("C171", "P", "C171_spread C171_heal C171_emptied", "Calls on an open node: restarts, crashes and threads are not part of the statement. The last block is not among the damaged ones, and the derivative chains are the same in both nodes.")
claim("C172", "P", "C172_exact C172_nothing C172_succeeds C172_occurs", "The 19 calls of the model's Op on one thread; errors of sled itself and of the file system are not modelled (DESIGN.md). Shows s.summary f and Shows s.gas g say that f and g are the balances the node displays; they hold of some f and g on every living node.")
claim("C173", "P", "C173_alone C173_order C173_shared", "Calls are executed one at a time; calls that overlap in time on several threads are the subject of the Threads* properties. Contents means what the stores answer (current contents), not which part of it has been flushed. A main block without transactions is counted as working with all balances at every height. reads and writes are upper bounds; Detached pairs shown to exist: different accounts, coins against gas of one account, payments between different people, derivative chains of different owners, a block with transactions against a transfer.")
claim("C174", "P", "C174_repeat C174_later C174_doubles", "Contents means what the stores answer, not which part of it has been flushed. The calls are executed one at a time and to the end; a call cut short by a crash and repeated after the restart is not the subject. The nine other calls are shown by one node each.")
claim("C175", "P", "C175_redo C175_twice C175_credit C175_first C175_unflushed", "Derivative chains are left out of the comparison: the tree's flush does not reach them (C59). The flushes themselves are left out, because a crash in one can leave a config file that does not open. What a crash can keep of a database is as in the model of sled described in DESIGN.md: the contents after some earlier write since the last flush. C175_redo is about any state, not only those that can arise.")
claim("C176", "P", "C176_redo C176_unsaved", "The derivative chains of other owners are left out of the comparison. What a crash can keep of a database is as in C175. C176_redo is about any state whose last main block can be read, not only those that can arise.")
claim("C177", "P", "C177_sum C177_order C177_refused C177_set", "Nodes are those that can arise, crashes included. Blocks and flushes are left out.")
claim("C178", "P", "C178_sum C178_all", "A step is one call on the databases, which sled makes atomic. set_amount and derivative chains are left out.")
claim("C179", "P", "C179_accepted C179_outcome", "A step is one call on the databases, which sled makes atomic. No block is added meanwhile, so the fee stays; set_amount and derivative chains are left out.")
claim("C180", "P", "C180_enough C180_exact C180_same C180_self", "set_amount and calls on blocks or derivative chains are left out. C180_self shows that C180_exact needs its hypothesis on calls to oneself.")
claim("C181", "P", "C181_orders C181_exact", "A step is one call on the databases, which sled makes atomic. No block is added meanwhile. For calls from an account to itself see C182.")
claim("C182", "P", "C182_exact", "A step is one call on the databases, which sled makes atomic. No block is added meanwhile. Extends C180 and C181 to calls from an account to itself.")
claim("C183", "P", "C183_same C183_serial C183_enough", "A step is one call on the databases, which sled makes atomic. No block is added, nothing is flushed and no balance is set meanwhile. Compared is what can be read, not what has been flushed to disk. Says nothing of schedules in which a call fails.")
claim("C184", "R", "C184_refuted C184_refuted_any C184_replies_partial C184_alone_partial", "False: send_transaction panics alike when the coins have gone since they were checked and when the gas has; in the one case the coins have not been moved, in the other they have. Proved if no send_transaction panics: which calls returned Ok then determines the node, and calls that failed have left nothing, the node being as if only those that returned Ok had been called, in any order that accepts them. A step is one call on the databases, which sled makes atomic. No block is added, nothing is flushed and no balance is set meanwhile. Compared is what can be read, not what has been flushed to disk.")
claim("C185", "P", "C185_cutoffs", "A step is one call on the databases, which sled makes atomic. No block is added, nothing is flushed and no balance is set meanwhile. Compared is what can be read, not what has been flushed to disk. Which of the three a panicked send_transaction has done cannot be told from the replies (C184).")
claim("C186", "P", "C186_left C186_replies", "A step is one call on the databases, which sled makes atomic. No block is added, nothing is flushed and no balance is set meanwhile. Compared is what can be read, not what has been flushed to disk. Without the gas the replies do not tell (C184).")
claim("C187", "P", "C187_moment C187_settled C187_gas_needed", "A step is one call on the databases, which sled makes atomic. set_amount and derivative chains are left out.")
claim("C188", "P", "C188_left C188_replies C188_room_needed", "A step is one call on the databases, which sled makes atomic. No block is added, nothing is flushed and no balance is set meanwhile. Compared is what can be read, not what has been flushed to disk. With neither the coins nor the gas the replies do not tell (C184).")
claim("C189", "P", "C189_settled", "A step is one call on the databases, which sled makes atomic. No block is added, nothing is flushed and no balance is set meanwhile; derivative chains are left out.")
#NEXT
out = os.path.join(os.path.dirname(__file__), "..", "MANIFEST.json")
with open(out, "w") as f:
    json.dump({"claims": C}, f, indent=1, ensure_ascii=False)
    f.write("\n")
