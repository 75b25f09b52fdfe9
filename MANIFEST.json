{
 "claims": [
  {
   "property": "C01",
   "status": "proved",
   "theorems": [
    "BCT.Props.C01_u256_roundtrip"
   ],
   "note": ""
  },
  {
   "property": "C02",
   "status": "proved",
   "theorems": [
    "BCT.Props.C02_u256_minimal",
    "BCT.Props.C02_u256_prefix_free"
   ],
   "note": ""
  },
  {
   "property": "C03",
   "status": "partial",
   "theorems": [
    "BCT.Props.C03_refuted_u256",
    "BCT.Props.C03_u256_size_partial",
    "BCT.Props.C03_refuted",
    "BCT.Props.C03_dump_sizes_partial"
   ],
   "note": "False of the code: a zero is announced one byte too long. Exact formula proved for every object."
  },
  {
   "property": "C04",
   "status": "partial",
   "theorems": [
    "BCT.Props.C04_refuted",
    "BCT.Props.C04_load_safe_partial",
    "BCT.Props.C04_load_ok"
   ],
   "note": "False of the code: the loaders panic on the empty string and on a number cut one byte short. The exact set of panicking inputs is proved."
  },
  {
   "property": "C05",
   "status": "proved",
   "theorems": [
    "BCT.Props.C05_biguint_dump_total",
    "BCT.Props.C05_biguint_roundtrip"
   ],
   "note": ""
  },
  {
   "property": "C06",
   "status": "proved",
   "theorems": [
    "BCT.Props.C06_formats_agree"
   ],
   "note": ""
  },
  {
   "property": "C07",
   "status": "proved",
   "theorems": [
    "BCT.Props.C07_header_roundtrip"
   ],
   "note": ""
  },
  {
   "property": "C08",
   "status": "partial",
   "theorems": [
    "BCT.Props.C08_refuted",
    "BCT.Props.C08_txblock_roundtrip_partial"
   ],
   "note": "False at height zero; proved to hold exactly at the other heights."
  },
  {
   "property": "C09",
   "status": "proved",
   "theorems": [
    "BCT.Props.C09_sum_deriv_roundtrip"
   ],
   "note": ""
  },
  {
   "property": "C10",
   "status": "partial",
   "theorems": [
    "BCT.Props.C10_refuted",
    "BCT.Props.C10_transaction_roundtrip_exact",
    "BCT.Props.C10_transaction_roundtrip_partial"
   ],
   "note": "An empty payload is parsed back as a missing one; everything else round-trips."
  },
  {
   "property": "C11",
   "status": "partial",
   "theorems": [
    "BCT.Props.C11_refuted",
    "BCT.Props.C11_main_block_read_back_partial"
   ],
   "note": "False for transaction blocks of height zero only."
  },
  {
   "property": "C12",
   "status": "partial",
   "theorems": [
    "BCT.Props.C12_refuted",
    "BCT.Props.C12_header_safe_partial",
    "BCT.Props.C12_transaction_safe_partial",
    "BCT.Props.C12_txblock_safe_partial",
    "BCT.Props.C12_stored_safe_partial"
   ],
   "note": "False of the code for each parser; the exact set of panicking inputs is proved."
  },
  {
   "property": "C13",
   "status": "proved",
   "theorems": [
    "BCT.Props.C13_dump_injective",
    "BCT.Props.C13_hash_collision"
   ],
   "note": ""
  },
  {
   "property": "C14",
   "status": "proved",
   "theorems": [
    "BCT.Props.C14_signature_covers_fields",
    "BCT.Props.C14_sign_verify_same_bytes",
    "BCT.Props.C14_no_block_signed"
   ],
   "note": ""
  },
  {
   "property": "C15",
   "status": "proved",
   "theorems": [
    "BCT.Props.C15_secp256k1",
    "BCT.Props.C15_verdict_is_ecdsa",
    "BCT.Props.C15_signed_verifies",
    "BCT.Props.C15_bad_key",
    "BCT.Props.C15_verdict_depends",
    "BCT.Props.C15_verify_iff"
   ],
   "note": "With secp256k1 as SEC 1 and SEC 2 define it, for every choice of nonces; the primality of p and n, the group law and the order of the base point are proved. Also for any signature scheme under its correctness law."
  },
  {
   "property": "C16",
   "status": "proved",
   "theorems": [
    "BCT.Props.C16_hash_of_dump",
    "BCT.Props.C16_hash_survives_wire"
   ],
   "note": ""
  },
  {
   "property": "C17",
   "status": "proved",
   "theorems": [
    "BCT.Props.C17_merkle_root",
    "BCT.Props.C17_empty_root"
   ],
   "note": ""
  },
  {
   "property": "C18",
   "status": "proved",
   "theorems": [
    "BCT.Props.C18_proof_complete"
   ],
   "note": ""
  },
  {
   "property": "C19",
   "status": "partial",
   "theorems": [
    "BCT.Props.C19_refuted",
    "BCT.Props.C19_single_leaf_partial",
    "BCT.Props.C19_pairs_partial"
   ],
   "note": "False of the code for every hash function: children are combined with bitwise AND before hashing, so the root ignores order and masked bits. Proved: the root is determined by, and barring an exhibited collision or masking determines, the ANDs of the pairs of sibling leaves."
  },
  {
   "property": "C20",
   "status": "partial",
   "theorems": [
    "BCT.Props.C20_refuted",
    "BCT.Props.C20_masked_bits_partial",
    "BCT.Props.C20_levels_partial",
    "BCT.Props.C20_single_leaf_partial"
   ],
   "note": "False of the code for every hash function: a proof of one leaf also verifies other values. Proved: which bits are guaranteed for proofs of any length; full soundness for the single-leaf tree."
  },
  {
   "property": "C21",
   "status": "proved",
   "theorems": [
    "BCT.Props.C21_leading_zeros"
   ],
   "note": ""
  },
  {
   "property": "C22",
   "status": "proved",
   "theorems": [
    "BCT.Props.C22_check_pow",
    "BCT.Props.C22_monotone"
   ],
   "note": ""
  },
  {
   "property": "C23",
   "status": "partial",
   "theorems": [
    "BCT.Props.C23_refuted",
    "BCT.Props.C23_one_bit_partial"
   ],
   "note": "False of the code: 255 fast blocks in a row lead to the all-zero difficulty, which the next slow block turns into one with 7 leading zeros. Proved for every chain that never gets there."
  },
  {
   "property": "C24",
   "status": "partial",
   "theorems": [
    "BCT.Props.C24_refuted",
    "BCT.Props.C24_min_one_bit_partial",
    "BCT.Props.C24_chain"
   ],
   "note": "False for arbitrary difficulties; proved for every in-order timestamp sequence from the initial difficulty."
  },
  {
   "property": "C25",
   "status": "partial",
   "theorems": [
    "BCT.Props.C25_refuted",
    "BCT.Props.C25_out_of_order_partial",
    "BCT.Props.C25_release_wraps_partial"
   ],
   "note": "False of the code: an out-of-order timestamp panics with overflow checks and wraps around without."
  },
  {
   "property": "C26",
   "status": "proved",
   "theorems": [
    "BCT.Props.C26_fee",
    "BCT.Props.C26_monotone",
    "BCT.Props.C26_range"
   ],
   "note": ""
  },
  {
   "property": "C27",
   "status": "proved",
   "theorems": [
    "BCT.Props.C27_txblock_validate",
    "BCT.Props.C27_sumblock_validate",
    "BCT.Props.C27_no_predecessor",
    "BCT.Props.C27_verify_block"
   ],
   "note": ""
  },
  {
   "property": "C28",
   "status": "partial",
   "theorems": [
    "BCT.Props.C28_refuted",
    "BCT.Props.C28_refuted_sha256",
    "BCT.Props.C28_pinned_partial"
   ],
   "note": "False of the code: validation ignores height, fee and founder. What it does pin down is proved."
  },
  {
   "property": "C29",
   "status": "partial",
   "theorems": [
    "BCT.Props.C29_refuted",
    "BCT.Props.C29_never_valid",
    "BCT.Props.C29_validate_partial"
   ],
   "note": "False of the code: a derivative block with a predecessor is either rejected or makes the node panic."
  },
  {
   "property": "C31",
   "status": "proved",
   "theorems": [
    "BCT.Props.C31_add_block",
    "BCT.Props.C31_add_block_derivative",
    "BCT.Props.C31_add_new_block",
    "BCT.Props.C31_at_the_top"
   ],
   "note": ""
  },
  {
   "property": "C32",
   "status": "proved",
   "theorems": [
    "BCT.Props.C32_contiguous",
    "BCT.Props.C32_contiguous_derivative"
   ],
   "note": ""
  },
  {
   "property": "C33",
   "status": "proved",
   "theorems": [
    "BCT.Props.C33_never_lost",
    "BCT.Props.C33_never_lost_derivative",
    "BCT.Props.C33_accepted_stays"
   ],
   "note": ""
  },
  {
   "property": "C34",
   "status": "proved",
   "theorems": [
    "BCT.Props.C34_find_by_hash",
    "BCT.Props.C34_find_by_hash_derivative"
   ],
   "note": ""
  },
  {
   "property": "C35",
   "status": "proved",
   "theorems": [
    "BCT.Props.C35_last_is_newest",
    "BCT.Props.C35_last_stays",
    "BCT.Props.C35_emitted_is_last",
    "BCT.Props.C35_last_never_fails",
    "BCT.Props.C35_last_derivative"
   ],
   "note": ""
  },
  {
   "property": "C36",
   "status": "partial",
   "theorems": [
    "BCT.Props.C36_refuted",
    "BCT.Props.C36_read_back_partial"
   ],
   "note": "False of the code: every derivative block of the right height is accepted onto the main chain and cannot be read back. Proved for the two main-chain kinds."
  },
  {
   "property": "C37",
   "status": "proved",
   "theorems": [
    "BCT.Props.C37_fresh_node"
   ],
   "note": ""
  },
  {
   "property": "C46",
   "status": "proved",
   "theorems": [
    "BCT.Props.C46_found_by_hash",
    "BCT.Props.C46_keyed"
   ],
   "note": ""
  },
  {
   "property": "C47",
   "status": "proved",
   "theorems": [
    "BCT.Props.C47_readable",
    "BCT.Props.C47_coin_call",
    "BCT.Props.C47_gas_call",
    "BCT.Props.C47_history",
    "BCT.Props.C47_start"
   ],
   "note": ""
  },
  {
   "property": "C48",
   "status": "proved",
   "theorems": [
    "BCT.Props.C48_transfers_conserve",
    "BCT.Props.C48_sum_exists"
   ],
   "note": ""
  },
  {
   "property": "C49",
   "status": "partial",
   "theorems": [
    "BCT.Props.C49_refuted",
    "BCT.Props.C49_self_transfer_mints",
    "BCT.Props.C49_gas_conserved_partial"
   ],
   "note": "False of the code: a gas transfer to oneself mints the amount. Proved for two different accounts."
  },
  {
   "property": "C50",
   "status": "partial",
   "theorems": [
    "BCT.Props.C50_refuted",
    "BCT.Props.C50_no_overspending_partial"
   ],
   "note": "False of the code: a coin transfer to oneself reports success whatever the balance. Balances never change; proved in full for every other call."
  },
  {
   "property": "C51",
   "status": "proved",
   "theorems": [
    "BCT.Props.C51_funded_transfer"
   ],
   "note": ""
  },
  {
   "property": "C52",
   "status": "proved",
   "theorems": [
    "BCT.Props.C52_effect"
   ],
   "note": ""
  },
  {
   "property": "C53",
   "status": "proved",
   "theorems": [
    "BCT.Props.C53_admission"
   ],
   "note": ""
  },
  {
   "property": "C54",
   "status": "partial",
   "theorems": [
    "BCT.Props.C54_refuted",
    "BCT.Props.C54_all_or_nothing_partial"
   ],
   "note": "False of the code: when the receiver's balance overflows the call panics after the transaction has been stored. Proved for every other outcome."
  },
  {
   "property": "C55",
   "status": "partial",
   "theorems": [
    "BCT.Props.C55_refuted",
    "BCT.Props.C55_store_once_partial"
   ],
   "note": "False of the code: an affordable transaction sent twice moves its coins twice. The store keeps it once."
  },
  {
   "property": "C56",
   "status": "partial",
   "theorems": [
    "BCT.Props.C56_refuted",
    "BCT.Props.C56_only_sender_pays_partial"
   ],
   "note": "False of the code: the signature is never checked, the outcome does not depend on it. Proved: nobody but the named sender loses coins."
  },
  {
   "property": "C57",
   "status": "partial",
   "theorems": [
    "BCT.Props.C57_refuted",
    "BCT.Props.C57_gas_charged_partial"
   ],
   "note": "False for a zero amount, whose dump is announced one byte too long. Exact charge proved for every transaction."
  },
  {
   "property": "C30",
   "status": "partial",
   "theorems": [
    "BCT.Props.C30_refuted",
    "BCT.Props.C30_refuted_sha256",
    "BCT.Props.C30_validates_iff_partial"
   ],
   "note": "False of the code: emitting checks the nonce against the previous block's hash, validating against the Merkle root. Proved: every other clause of the validator holds, and the block validates iff the nonce also meets the other rule."
  },
  {
   "property": "C38",
   "status": "proved",
   "theorems": [
    "BCT.Props.C38_hash_linked"
   ],
   "note": "Heights below the last representable one."
  },
  {
   "property": "C39",
   "status": "proved",
   "theorems": [
    "BCT.Props.C39_kinds"
   ],
   "note": ""
  },
  {
   "property": "C40",
   "status": "partial",
   "theorems": [
    "BCT.Props.C40_refuted",
    "BCT.Props.C40_refuted_sha256",
    "BCT.Props.C40_no_side_effects_partial",
    "BCT.Props.C40_exact_partial"
   ],
   "note": "False with overflow checks: a timestamp before that of the last block panics. Proved for all histories: no failing call has an effect, and bad proof of work gets its error; on emitted chains with ordered timestamps or without overflow checks, all of it."
  },
  {
   "property": "C41",
   "status": "proved",
   "theorems": [
    "BCT.Props.C41_epoch"
   ],
   "note": ""
  },
  {
   "property": "C42",
   "status": "partial",
   "theorems": [
    "BCT.Props.C42_refuted",
    "BCT.Props.C42_leaves_partial"
   ],
   "note": "False of the code: gas of an account without a coin entry is not committed to. Proved: leaves determine accounts and every coin holder has one."
  },
  {
   "property": "C43",
   "status": "partial",
   "theorems": [
    "BCT.Props.C43_refuted",
    "BCT.Props.C43_refuted_sha256",
    "BCT.Props.C43_genesis_text_partial"
   ],
   "note": "False of the code: the genesis block uses a textual format. Proved: what it does commit to."
  },
  {
   "property": "C44",
   "status": "proved",
   "theorems": [
    "BCT.Props.C44_anchored_and_linked",
    "BCT.Props.C44_isolation"
   ],
   "note": ""
  },
  {
   "property": "C45",
   "status": "proved",
   "theorems": [
    "BCT.Props.C45_directories",
    "BCT.Props.C45_directory_names"
   ],
   "note": ""
  },
  {
   "property": "C58",
   "status": "partial",
   "theorems": [
    "BCT.Props.C58_refuted",
    "BCT.Props.C58_flushed_restart_partial",
    "BCT.Props.C58_flushed_close_partial"
   ],
   "note": "False of the code: at height 1 every restart resets the root account's balance. Proved: everything else is kept."
  },
  {
   "property": "C59",
   "status": "partial",
   "theorems": [
    "BCT.Props.C59_refuted",
    "BCT.Props.C59_flushed_derivative_partial"
   ],
   "note": "False of the code: BlockChainTree::flush does not flush derivative chains. Proved: a derivative chain flushed through its own handle is kept."
  },
  {
   "property": "C60",
   "status": "partial",
   "theorems": [
    "BCT.Props.C60_refuted",
    "BCT.Props.C60_restart_partial"
   ],
   "note": "False of the code: at height 1 every restart gives the root account all initial coins again. Proved: exactly what a restart does to the sum."
  },
  {
   "property": "C61",
   "status": "partial",
   "theorems": [
    "BCT.Props.C61_refuted",
    "BCT.Props.C61_flushed_blocks_partial"
   ],
   "note": "False of the code: blocks accepted after the last flush are lost even by a clean shutdown. Proved: flushed blocks survive any later stop."
  },
  {
   "property": "C62",
   "status": "partial",
   "theorems": [
    "BCT.Props.C62_refuted",
    "BCT.Props.C62_refuted_sha256",
    "BCT.Props.C62_truthful_partial"
   ],
   "note": "False of the code: a stale hash entry answers with another block after a restart without flush. Proved for nodes always flushed before going down."
  },
  {
   "property": "C63",
   "status": "proved",
   "theorems": [
    "BCT.Props.C63_prefix_since_flush",
    "BCT.Props.C63_prefix_since_open",
    "BCT.Props.C63_while_opening",
    "BCT.Props.C63_coins_survive"
   ],
   "note": ""
  },
  {
   "property": "C64",
   "status": "partial",
   "theorems": [
    "BCT.Props.C64_refuted",
    "BCT.Props.C64_opens_iff_partial",
    "BCT.Props.C64_opens_partial"
   ],
   "note": "False of the code: a crash while the config file is rewritten leaves a directory that can never be opened. Proved for all other points."
  },
  {
   "property": "C65",
   "status": "partial",
   "theorems": [
    "BCT.Props.C65_refuted",
    "BCT.Props.C65_tip_partial",
    "BCT.Props.C65_after_crash_partial"
   ],
   "note": "False of the code: the config file is written before the blocks are flushed. Proved for crashes at all points outside config-writing calls."
  },
  {
   "property": "C66",
   "status": "proved",
   "theorems": [
    "BCT.Props.C66_open_node",
    "BCT.Props.C66_on_disk",
    "BCT.Props.C66_readable"
   ],
   "note": ""
  },
  {
   "property": "C67",
   "status": "proved",
   "theorems": [
    "BCT.Props.C67_total_order"
   ],
   "note": "For both byte orders of the machine (transmute to [u64; 4])."
  },
  {
   "property": "C68",
   "status": "partial",
   "theorems": [
    "BCT.Props.C68_refuted",
    "BCT.Props.C68_refuted_sha256",
    "BCT.Props.C68_consistency_partial"
   ],
   "note": "False of the code for transactions: == compares only timestamps, cmp also hashes. Proved for blocks, and for transactions of different timestamps or the same hash."
  },
  {
   "property": "C69",
   "status": "proved",
   "theorems": [
    "BCT.Props.C69_pool_set"
   ],
   "note": "The standard library's binary heap is modelled as its algorithm, not as its contract."
  },
  {
   "property": "C70",
   "status": "proved",
   "theorems": [
    "BCT.Props.C70_oldest_first"
   ],
   "note": ""
  },
  {
   "property": "C79",
   "status": "partial",
   "theorems": [
    "BCT.Props.C79_refuted",
    "BCT.Props.C79_headers_partial"
   ],
   "note": "False of the code: from_u8 rejects 5, the value of GenesisBlock. Proved for all other headers and bytes."
  },
  {
   "property": "C71",
   "status": "proved",
   "theorems": [
    "BCT.Props.C71_nothing_lost",
    "BCT.Props.C71_deposits",
    "BCT.Props.C71_quiescent",
    "BCT.Props.C71_no_deadlock",
    "BCT.Props.C71_any_order"
   ],
   "note": "A deposit that would exceed 256 bits panics and changes nothing; the sum over all calls is stated for amounts that fit."
  },
  {
   "property": "C74",
   "status": "proved",
   "theorems": [
    "BCT.Props.C74_exactly_one",
    "BCT.Props.C74_at_most_one",
    "BCT.Props.C74_no_deadlock",
    "BCT.Props.C74_anyone_can_win"
   ],
   "note": "For heights below 2^256 - 1."
  },
  {
   "property": "C72",
   "status": "proved",
   "theorems": [
    "BCT.Props.C72_conserved"
   ],
   "note": ""
  },
  {
   "property": "C73",
   "status": "partial",
   "theorems": [
    "BCT.Props.C73_refuted",
    "BCT.Props.C73_charged_partial"
   ],
   "note": "False of the code: two transactions of one sender can both pass the gas check before either pays. Proved when every address can pay the gas of all transactions it sends at once."
  },
  {
   "property": "C75",
   "status": "partial",
   "theorems": [
    "BCT.Props.C75_refuted",
    "BCT.Props.C75_refuted_any",
    "BCT.Props.C75_failed_emit_partial"
   ],
   "note": "False of the code: at the end of an epoch the databases are rotated before the block is added, so an emission that loses the race has ended the epoch without a summarize block. Proved: every other failed emission, and every emission with transactions, leaves balances, gas and snapshots alone."
  },
  {
   "property": "C76",
   "status": "proved",
   "theorems": [
    "BCT.Props.C76_get_funds",
    "BCT.Props.C76_decrease"
   ],
   "note": "An add_funds call that panics because the address is not UTF-8 has been made nevertheless (C77)."
  },
  {
   "property": "C77",
   "status": "partial",
   "theorems": [
    "BCT.Props.C77_refuted",
    "BCT.Props.C77_no_panic_partial"
   ],
   "note": "False of the code: the messages of errors that did not happen are formatted, which panics unless the 33 address bytes are UTF-8. Proved: no panic for addresses that are UTF-8 and sums below 2^256, nor for decrease_funds of a known address."
  },
  {
   "property": "C78",
   "status": "partial",
   "theorems": [
    "BCT.Props.C78_refuted",
    "BCT.Props.C78_bounds_partial"
   ],
   "note": "False of the code: add_funds reads and writes in two accesses, so one of two concurrent deposits can be lost. Proved: never more than the sum, never less than before, and exact for addresses only one thread adds to."
  },
  {
   "property": "C80",
   "status": "proved",
   "theorems": [
    "BCT.Props.C80_copy",
    "BCT.Props.C80_exact"
   ],
   "note": "For directories neither of which is inside the other, without symbolic links; the order of listing is arbitrary. A name that is a file on one side and a directory on the other makes it fail."
  },
  {
   "property": "C81",
   "status": "proved",
   "theorems": [
    "BCT.Props.C81_compress",
    "BCT.Props.C81_decompress"
   ],
   "note": "zstd is any codec whose decoder undoes its encoder."
  },
  {
   "property": "C82",
   "status": "partial",
   "theorems": [
    "BCT.Props.C82_refuted",
    "BCT.Props.C82_refuted_sha256",
    "BCT.Props.C82_balances_partial"
   ],
   "note": "False of the code: an address with a stored zero balance is a leaf, one without an entry is not. Proved when the same addresses have entries."
  },
  {
   "property": "C83",
   "status": "partial",
   "theorems": [
    "BCT.Props.C83_refuted",
    "BCT.Props.C83_last_leaf_partial",
    "BCT.Props.C83_levels_partial"
   ],
   "note": "False of the code: get_proof answers for the last leaf instead, and as sibling pairs are combined with AND this can verify for the absent hash. Proved: what is returned, that it does not verify for one-leaf trees, and for trees of any size what has to coincide for it to verify."
  },
  {
   "property": "C84",
   "status": "partial",
   "theorems": [
    "BCT.Props.C84_refuted",
    "BCT.Props.C84_threshold_partial"
   ],
   "note": "False of the code: the fee is only compared with the balance. Proved: sender needs amount plus fee, pays the amount, nothing else moves."
  },
  {
   "property": "C85",
   "status": "partial",
   "theorems": [
    "BCT.Props.C85_refuted",
    "BCT.Props.C85_refuted_sha256",
    "BCT.Props.C85_as_given_partial"
   ],
   "note": "False of the code: neither membership nor repetition is checked. Proved: the block lists exactly what the caller gave."
  },
  {
   "property": "C86",
   "status": "proved",
   "theorems": [
    "BCT.Props.C86_never_lost"
   ],
   "note": "The alternative is an explicit pair of byte strings with the same digest."
  },
  {
   "property": "C87",
   "status": "partial",
   "theorems": [
    "BCT.Props.C87_refuted",
    "BCT.Props.C87_refuted_sha256",
    "BCT.Props.C87_covered_partial"
   ],
   "note": "False of the code: check_pow hashes previous hash, Merkle root and nonce only. Proved: these three are determined by the hashed bytes and are those of the block."
  },
  {
   "property": "C88",
   "status": "partial",
   "theorems": [
    "BCT.Props.C88_refuted",
    "BCT.Props.C88_refuted_sha256",
    "BCT.Props.C88_one_chain_partial"
   ],
   "note": "False of the code: one nonce starts the derivative chains of all owners. Proved within one chain, barring two stored blocks with the same hash."
  },
  {
   "property": "C89",
   "status": "proved",
   "theorems": [
    "BCT.Props.C89_readable",
    "BCT.Props.C89_never_lost"
   ],
   "note": "A call that is cut short leaves one of the states it passes through; sled accesses and sled transactions are atomic."
  },
  {
   "property": "C90",
   "status": "partial",
   "theorems": [
    "BCT.Props.C90_refuted",
    "BCT.Props.C90_steps_partial"
   ],
   "note": "False of the code: coins and gas are two sled transactions. Proved: the transaction is stored first, then the coins move as a whole, then the gas is charged as a whole; no coin is lost."
  },
  {
   "property": "C91",
   "status": "partial",
   "theorems": [
    "BCT.Props.C91_refuted",
    "BCT.Props.C91_retry_partial"
   ],
   "note": "False of the code: find_raw_by_height answers for the chain's own height, at which the cut addition has stored its block. Proved: lookups below the height, balances and transactions are unaffected, and a retry succeeds."
  },
  {
   "property": "C92",
   "status": "proved",
   "theorems": [
    "BCT.Props.C92_intact",
    "BCT.Props.C92_never_lost"
   ],
   "note": "While the node runs; restarts are in C61 and C65."
  },
  {
   "property": "C93",
   "status": "partial",
   "theorems": [
    "BCT.Props.C93_refuted",
    "BCT.Props.C93_refuted_sha256",
    "BCT.Props.C93_accepted_partial"
   ],
   "note": "False of the code: the hash of a block whose addition was cut short leads to the block added in its place. Proved: lookups do not fail, and accepted blocks are found, barring an explicit collision."
  },
  {
   "property": "C94",
   "status": "partial",
   "theorems": [
    "BCT.Props.C94_refuted",
    "BCT.Props.C94_refuted_any",
    "BCT.Props.C94_exact_partial"
   ],
   "note": "False of the code: the emission replaces what the root account holds. Proved: the total changes by the emission less the root account's balance."
  },
  {
   "property": "C95",
   "status": "proved",
   "theorems": [
    "BCT.Props.C95_supply",
    "BCT.Props.C95_no_overflow"
   ],
   "note": "While the node runs; a restart at height 1 writes the root balance again (C60)."
  },
  {
   "property": "C96",
   "status": "partial",
   "theorems": [
    "BCT.Props.C96_refuted",
    "BCT.Props.C96_refuted_sha256",
    "BCT.Props.C96_in_order_partial"
   ],
   "note": "False of builds without overflow checks, where any timestamp is accepted. Proved for builds with overflow checks."
  },
  {
   "property": "C97",
   "status": "proved",
   "theorems": [
    "BCT.Props.C97_rate"
   ],
   "note": ""
  },
  {
   "property": "C98",
   "status": "proved",
   "theorems": [
    "BCT.Props.C98_values",
    "BCT.Props.C98_all_occur"
   ],
   "note": ""
  },
  {
   "property": "C99",
   "status": "proved",
   "theorems": [
    "BCT.Props.C99_no_deadlock",
    "BCT.Props.C99_bounded",
    "BCT.Props.C99_all_end",
    "BCT.Props.C99_lock_released"
   ],
   "note": "At most 27 steps per call. Locks inside the storage engine and the summary database are atomic in the model."
  },
  {
   "property": "C100",
   "status": "partial",
   "theorems": [
    "BCT.Props.C100_refuted",
    "BCT.Props.C100_lookup_partial"
   ],
   "note": "False of the code: between the writes of add_block the block is found by height and not by hash. Proved: every single lookup answers, correctly with respect to the moments at which it began and ended."
  },
  {
   "property": "C101",
   "status": "partial",
   "theorems": [
    "BCT.Props.C101_refuted",
    "BCT.Props.C101_answer_partial"
   ],
   "note": "False of the code: the empty proof, which is what get_proof gives for a tree without leaves once the root is taken off, panics. Proved for all other proofs, exactly."
  },
  {
   "property": "C102",
   "status": "partial",
   "theorems": [
    "BCT.Props.C102_refuted",
    "BCT.Props.C102_exact_partial",
    "BCT.Props.C102_unique_partial"
   ],
   "note": "False of the code: leading zeros of numbers, and bytes after blocks, are accepted. Proved: for each parser the exact set of byte strings that parse to a given object."
  },
  {
   "property": "C103",
   "status": "proved",
   "theorems": [
    "BCT.Props.C103_linearizable",
    "BCT.Props.C103_quiescent",
    "BCT.Props.C103_self_transfer"
   ],
   "note": "Transfers of coins to oneself take no step on the database (C103_self_transfer); transfers of gas to oneself create gas (C49) and are part of the order. One sled transaction at a time is part of the model."
  },
  {
   "property": "C104",
   "status": "proved",
   "theorems": [
    "BCT.Props.C104_frame"
   ],
   "note": ""
  },
  {
   "property": "C105",
   "status": "partial",
   "theorems": [
    "BCT.Props.C105_refuted",
    "BCT.Props.C105_constant_partial"
   ],
   "note": "False of the code: the difficulty field is never updated. Proved: in the whole life of a node every recorded difficulty is that of genesis. Emission and validation take the difficulty from the last block, so nothing else depends on it."
  },
  {
   "property": "C106",
   "status": "partial",
   "theorems": [
    "BCT.Props.C106_refuted",
    "BCT.Props.C106_only_hole_partial"
   ],
   "note": "False of the code: the last write of a flush that has returned may land in the file the next flush has truncated; the config then begins with zeros and the node starts over. Proved: nothing else can go wrong, whatever the threads do, and with one flush at most nothing does."
  },
  {
   "property": "C107",
   "status": "partial",
   "theorems": [
    "BCT.Props.C107_refuted",
    "BCT.Props.C107_settled_partial"
   ],
   "note": "False of the code: the last write of the config file may be pending when flush returns (the node then never opens again after a crash), and overlapping flushes may write an older height. Proved: durable if no flush was in progress when it began and all flushes, background writes included, have ended."
  },
  {
   "property": "C108",
   "status": "proved",
   "theorems": [
    "BCT.Props.C108_one_key_one_account",
    "BCT.Props.C108_secret_keys"
   ],
   "note": ""
  },
  {
   "property": "C109",
   "status": "proved",
   "theorems": [
    "BCT.Props.C109_published_root_key",
    "BCT.Props.C109_only_key"
   ],
   "note": ""
  },
  {
   "property": "C110",
   "status": "partial",
   "theorems": [
    "BCT.Props.C110_refuted",
    "BCT.Props.C110_at_most_eight_partial"
   ],
   "note": "False of ECDSA for every key and signature: the mirrored point has the same first coordinate. Proved: at most eight digests per key and signature."
  },
  {
   "property": "C111",
   "status": "partial",
   "theorems": [
    "BCT.Props.C111_refuted",
    "BCT.Props.C111_first_half_partial"
   ],
   "note": "False for every transaction: the signer can use another nonce. Proved: the mirrored signature is refused, and the first half fixes the second up to the rare two points with one first coordinate modulo n."
  },
  {
   "property": "C112",
   "status": "partial",
   "theorems": [
    "BCT.Props.C112_refuted",
    "BCT.Props.C112_same_chain_partial"
   ],
   "note": "False of the code: add_new_block stores blocks and transactions and leaves the balances alone, so every replica has the balances of a fresh node. Proved: the blocks to hand over are determined by the node, all are accepted, and every question about blocks is answered alike."
  },
  {
   "property": "C113",
   "status": "partial",
   "theorems": [
    "BCT.Props.C113_refuted",
    "BCT.Props.C113_tip_commits_partial"
   ],
   "note": "False of nodes that are handed blocks: add_block does not check the previous hash, so two nodes may share a tip and differ below. Proved for nodes that emit their blocks or validate those they are handed."
  },
  {
   "property": "C114",
   "status": "partial",
   "theorems": [
    "BCT.Props.C114_refuted",
    "BCT.Props.C114_callers_validate_partial"
   ],
   "note": "False of the code for every node: add_block looks at the height only, and a block that points elsewhere becomes the last block. Proved: exactly the height is checked, and callers that validate first keep a hash-linked chain."
  },
  {
   "property": "C115",
   "status": "proved",
   "theorems": [
    "BCT.Props.C115_depends",
    "BCT.Props.C115_run"
   ],
   "note": "Two states that agree on the parts a call may read (and on any further parts) give the same outcome and keep agreeing at every moment of the call; lists of calls likewise for states that differ in the write-only parts."
  },
  {
   "property": "C116",
   "status": "proved",
   "theorems": [
    "BCT.Props.C116_open_again"
   ],
   "note": "For all directories, reachable or not."
  },
  {
   "property": "C117",
   "status": "partial",
   "theorems": [
    "BCT.Props.C117_refuted",
    "BCT.Props.C117_refuted_sha256",
    "BCT.Props.C117_running_partial",
    "BCT.Props.C117_flushed_partial",
    "BCT.Props.C117_first_opened"
   ],
   "note": "False of the code: the anchor of a chain that was opened but never flushed is forgotten when the node goes down, and the chain is anchored elsewhere when opened next. Proved while the node runs, and for ever once the chain has a config file."
  },
  {
   "property": "C118",
   "status": "partial",
   "theorems": [
    "BCT.Props.C118_refuted",
    "BCT.Props.C118_refuted_sha256",
    "BCT.Props.C118_first_points_at_anchor_partial"
   ],
   "note": "False of the code: after a restart without flush the anchor's hash can find another block of the main chain, and the first derivative block points at that one. Proved for nodes always flushed before they go down."
  },
  {
   "property": "C119",
   "status": "proved",
   "theorems": [
    "BCT.Props.C119_emitted_amid_threads"
   ],
   "note": "For every schedule of an emission among any number of other calls; the height bound keeps 256-bit heights from running out."
  },
  {
   "property": "C120",
   "status": "proved",
   "theorems": [
    "BCT.Props.C120_derivative_amid_threads"
   ],
   "note": "For every schedule of an emission on an open derivative chain among any number of other calls on it and on the node; the bounds keep 256-bit heights from running out. emitDerivative_alone: the program run alone is the sequential function."
  },
  {
   "property": "C121",
   "status": "proved",
   "theorems": [
    "BCT.Props.C121_no_deadlock",
    "BCT.Props.C121_all_end",
    "BCT.Props.C121_locks_released"
   ],
   "note": "For every schedule of any number of calls on the node and one open derivative chain, whose two locks are modelled apart; proved from an ownership invariant: each lock that is held has exactly one owner and the program left to its owner gives it back on every path without waiting for the other lock."
  },
  {
   "property": "C122",
   "status": "proved",
   "theorems": [
    "BCT.Props.C122_no_gas_no_transactions"
   ],
   "note": "Over LifeWith: all histories with crashes at any moment in which add_gas is not called. The example shows an account rich in coins whose transaction is refused."
  },
  {
   "property": "C123",
   "status": "proved",
   "theorems": [
    "BCT.Props.C123_gas_books",
    "BCT.Props.C123_granted"
   ],
   "note": "An exact equation, in which the amounts of gas transfers to oneself count as gas brought in, because send_gas creates them (C49). C123_granted: without such transfers everything was granted."
  },
  {
   "property": "C124",
   "status": "proved",
   "theorems": [
    "BCT.Props.C124_coin_books"
   ],
   "note": "An exact equation over all histories; what set_amount and the emission overwrite counts as taken away (C94: the root account's coins are lost). The example is the end of an epoch."
  },
  {
   "property": "C125",
   "status": "proved",
   "theorems": [
    "BCT.Props.C125_rotated"
   ],
   "note": ""
  },
  {
   "property": "C126",
   "status": "partial",
   "theorems": [
    "BCT.Props.C126_refuted",
    "BCT.Props.C126_halfway_partial"
   ],
   "note": "False: the old directory is removed before the copy is made, so for every node there is a moment at which no old balances are on disk at all (C126_refuted), and the copy is made file by file in place. Proved: at every moment each old directory holds only unchanged things of before, or only things of the current directory (files possibly truncated), never a mixture."
  },
  {
   "property": "C127",
   "status": "proved",
   "theorems": [
    "BCT.Props.C127_same_replies",
    "BCT.Props.C127_same_answers",
    "BCT.Props.C127_same_blocks"
   ],
   "note": "A refinement: Spec.Node (Verif/Spec/Node.lean) gives the reply and the effect of each of the 19 calls and the answer to each of 17 questions without databases, indices or encodings; the relation Matches is kept by every call. Sequences of at least 2^256 - 1 calls, which could bring a height to the end of U256, are excluded. Restarts and failing disk operations are not part of this statement (see C58 to C66 and C75)."
  },
  {
   "property": "C128",
   "status": "proved",
   "theorems": [
    "BCT.Props.C128_restarts_same_replies",
    "BCT.Props.C128_restarts_same_answers",
    "BCT.Props.C128_events_happen"
   ],
   "note": "Lives: calls and orderly restarts with any disk allowed by Crash after the flushes. Tidy: every open derivative chain is among those flushed. What happens without the flushes is the subject of C59, C61, C62, C64, C65. C128_events_happen shows that every list of events can happen."
  },
  {
   "property": "C129",
   "status": "partial",
   "theorems": [
    "BCT.Props.C129_refuted",
    "BCT.Props.C129_only_opens_partial",
    "BCT.Props.C129_exact_partial"
   ],
   "note": "False of the code: a request refused for lack of work has already opened the owner's chain and so anchored it at the present last main block; anyone can thus fix where another owner's chain begins, and that owner's work for a later block is then refused. Proved: a failing request does exactly what opening the chain does, nothing if it was open (any state); on nodes whose blocks were all mined, requests are granted exactly if the nonce has enough work (time not before that of the block to follow, or no overflow checks)."
  },
  {
   "property": "C130",
   "status": "partial",
   "theorems": [
    "BCT.Props.C130_refuted",
    "BCT.Props.C130_serializable_partial"
   ],
   "note": "False of the code: a block being added is found by height before it is found by hash. Proved: there always is such an order, with the same answers and the same final state, and it respects time but for one case: a lookup by hash may come before calls, other than lookups by hash and adding blocks, that had ended when it began. Heights below 2^256 less the number of threads; one sled transaction is one step; flushes, emissions and send_transaction, which make several changes without a lock, are in C73, C75, C106."
  },
  {
   "property": "C131",
   "status": "proved",
   "theorems": [
    "BCT.Props.C131_linearizable",
    "BCT.Props.C131_one_sender"
   ],
   "note": "Also at every moment before the calls have ended. Same contents: all but what a crash may leave of transactions and gas, which depends on the order of writes. C131_one_sender: with two transactions of one sender there may be no such order. Adding blocks at the same time, which changes the fee, is not included."
  },
  {
   "property": "C132",
   "status": "partial",
   "theorems": [
    "BCT.Props.C132_refuted",
    "BCT.Props.C132_databases_partial",
    "BCT.Props.C132_last_config_partial",
    "BCT.Props.C132_no_higher"
   ],
   "note": "False: dump_config does not sync the config file. From every state, a power failure after flush has returned can leave a directory that cannot be opened, and on the first run one that opens at height 1 with the root account full again. Proved: the databases keep every flushed block and transaction; with a whole config file the node opens at its height and returns the flushed blocks up to it; with the last config file nothing is lost; the height is never above the one before the failure."
  },
  {
   "property": "C133",
   "status": "proved",
   "theorems": [
    "BCT.Props.C133_mining_example",
    "BCT.Props.some_sessions"
   ],
   "note": "Sessions of the three example programs (Model/Examples.lean), with any crash after the last flush of each. some_sessions shows a sequence of all three programs."
  },
  {
   "property": "C134",
   "status": "proved",
   "theorems": [
    "BCT.Props.C134_derivative_example",
    "BCT.Props.some_sessions"
   ],
   "note": "The derivative chain is the wallet's own, found again through its config file by each run."
  },
  {
   "property": "C135",
   "status": "proved",
   "theorems": [
    "BCT.Props.C135_sending_example",
    "BCT.Props.some_sessions"
   ],
   "note": "Exact: success if and only if the condition holds, a panic otherwise."
  },
  {
   "property": "C136",
   "status": "partial",
   "theorems": [
    "BCT.Props.C136_refuted",
    "BCT.Props.C136_off_by_one_partial"
   ],
   "note": "C136_refuted: for every block not ending an epoch, after every sequence of programs, there are moments and recovered states with the payment but no block, the block but no payment, and no start at all. C136_off_by_one_partial: at every moment what was flushed is kept, and both are at most one block ahead. Missing: that they agree."
  },
  {
   "property": "C137",
   "status": "partial",
   "theorems": [
    "BCT.Props.C137_refuted",
    "BCT.Props.C137_each_partial",
    "BCT.Props.C137_unflushed",
    "BCT.Props.C137_coins"
   ],
   "note": "C137_refuted: in every state in which a transaction can be sent, a schedule and a crash after which its gas is charged and its coins are not moved, which was so at no moment. C137_each_partial: each database is what it was at some moment since the flush began. C137_unflushed: without a flush, it is what could be found at the start or what it was since. C137_coins: the sum of all coins found is what it was. Missing: that it is the same moment for all databases."
  },
  {
   "property": "C138",
   "status": "proved",
   "theorems": [
    "BCT.Props.C138_killed_node",
    "BCT.Props.C138_a_case"
   ],
   "note": "C138_killed_node: what can happen to the node, with the replies and all later answers, is exactly what can happen to the abstract node. Deaths inside a flush or inside the call that ends an epoch are not in it: they can leave a configuration file that cannot be read or that counts blocks that are not there (C64, C65, C132); C147 covers them. C138_a_case: a payment and a mined block, then death: the payment may be there or not, the height is 1, and the lost block is found at height 1."
  },
  {
   "property": "C139",
   "status": "partial",
   "theorems": [
    "BCT.Props.C139_refuted",
    "BCT.Props.C139_storage_paid_partial"
   ],
   "note": "False of the code: sending to a receiver whose balance would overflow stores the transaction, takes no gas and can be repeated. Proved: as long as there are fewer than 2^256 coins the bound holds, and from any state what is stored is paid for by accepted transactions."
  },
  {
   "property": "C140",
   "status": "partial",
   "theorems": [
    "BCT.Props.C140_refuted",
    "BCT.Props.C140_relief_partial",
    "BCT.Props.C140_rise_partial"
   ],
   "note": "False of the code: the nonce is checked against the difficulty recorded in the last block, whatever the time of the new one, so waiting never helps. Proved: how blocks move the difficulty, down one bit for each recorded more than 600 seconds after the last (to one leading zero bit, where it stays), up one bit for each recorded less than 600 seconds after it (to the all-zero difficulty)."
  },
  {
   "property": "C141",
   "status": "proved",
   "theorems": [
    "BCT.Props.C141_work_binds",
    "BCT.Props.C141_branches"
   ],
   "note": "Barring two stored blocks with the same hash. The work of the first block that differs can be shared (C87): it covers neither founder nor timestamp."
  },
  {
   "property": "C142",
   "status": "proved",
   "theorems": [
    "BCT.Props.C142_getters"
   ],
   "note": "All three kinds of block."
  },
  {
   "property": "C143",
   "status": "partial",
   "theorems": [
    "BCT.Props.C143_refuted",
    "BCT.Props.C143_refuted_sha256",
    "BCT.Props.C143_light_partial"
   ],
   "note": "False of the code for every hash function and every chain: a block that lists x has an accepted proof for every hash that covers the bits of x, so every block proves the hash with all bits set. Proved: every listed transaction, and at the end of an epoch every account with coins, has a proof; what the last step of an accepted proof must combine; for blocks of one transaction and proofs of one step the hash covers the bits of the transaction."
  },
  {
   "property": "C144",
   "status": "partial",
   "theorems": [
    "BCT.Props.C144_refuted",
    "BCT.Props.C144_next_partial"
   ],
   "note": "False of builds with overflow checks: dates are not compared with the clock, so one block dated in the future makes every emission of an earlier date fail from then on, and one dated at the end of time (2^64-1) leaves a chain whose difficulty rises with every block to 256 zero bits. Proved: the next block can be emitted by everyone in builds without overflow checks, and by those whose clock has passed the date of the last block in the others."
  },
  {
   "property": "C145",
   "status": "partial",
   "theorems": [
    "BCT.Props.C145_refuted",
    "BCT.Props.C145_no_effect_partial"
   ],
   "note": "False of the code: the list of any block may be emitted again as the next block, and both are stored. Proved: being listed changes no balance, no gas and no stored transaction, so a transaction listed twice has been paid once."
  },
  {
   "property": "C146",
   "status": "proved",
   "theorems": [
    "BCT.Props.C146_no_deadlock",
    "BCT.Props.C146_intact",
    "BCT.Props.C146_stores",
    "BCT.Props.C146_coins",
    "BCT.Props.C146_lookup",
    "BCT.Props.C146_accepted"
   ],
   "note": "The lock of a call cut short is given back when its guard is dropped (Model/ThreadsCut.lean). The sum of coin balances is only kept by the calls that do not mint (C146_coins is for the calls of SharedCall: sending, flushing, main chain handles)."
  },
  {
   "property": "C147",
   "status": "proved",
   "theorems": [
    "BCT.Props.C147_killed_writing",
    "BCT.Props.C147_otherwise",
    "BCT.Props.C147_a_case",
    "BCT.Props.C147_cut_case",
    "BCT.Props.C147_torn_case"
   ],
   "note": "C147_killed_writing is an equivalence: whatever whole files can lead to the abstract node allows, and the reverse. C147_otherwise describes the other files. The cases: a block kept while the payment and the block's digest are lost; an empty configuration file that no start survives; a height that counts a missing first block."
  },
  {
   "property": "C148",
   "status": "proved",
   "theorems": [
    "BCT.Props.C148_history",
    "BCT.Props.C148_later",
    "BCT.Props.C148_no_deadlock",
    "BCT.Props.C148_intact",
    "BCT.Props.C148_accepted",
    "BCT.Props.C148_emitted",
    "BCT.Props.C148_lookup"
   ],
   "note": "One derivative chain is shared by the threads besides the node (Model/ThreadsDerivCut.lean: the guards held are given back in the end of the cut call). What the first block of a derivative chain is built on is left out of C148_emitted."
  },
  {
   "property": "C149",
   "status": "proved",
   "theorems": [
    "BCT.Props.C149_opens",
    "BCT.Props.C149_readable",
    "BCT.Props.C149_flushed",
    "BCT.Props.C149_accepted",
    "BCT.Props.C149_stores"
   ],
   "note": "Crashes in the middle of the calls that write the config file (flush, the summarize block's emission) are left out of these lives: C64 and C65 show what goes wrong there."
  },
  {
   "property": "C150",
   "status": "partial",
   "theorems": [
    "BCT.Props.C150_refuted",
    "BCT.Props.C150_opens_partial",
    "BCT.Props.C150_open_partial",
    "BCT.Props.C150_flushed_partial"
   ],
   "note": "Refuted for every owner and hash function: stopped in the middle of DerivativeChain::flush, after the config file was truncated, the chain can never be opened again, whatever is done later; stopped after the config file was written but before the blocks were, the chain opens with a height of one and no block, and no derivative block can be emitted. Proved for all lives not stopped in the middle of a flush of that derivative chain: everything else, the main chain's flushes included, may be cut off anywhere."
  },
  {
   "property": "C151",
   "status": "proved",
   "theorems": [
    "BCT.Props.C151_opens",
    "BCT.Props.C151_readable",
    "BCT.Props.C151_flushed",
    "BCT.Props.C151_accepted",
    "BCT.Props.C151_emitted"
   ],
   "note": "Joins C148 and C150 over one whole history. That a flush of the derivative chain is not killed in its middle and not made while other threads work on the chain is part of the statement; killed in its middle, the chain is lost for good (C150_refuted)."
  },
  {
   "property": "C152",
   "status": "partial",
   "theorems": [
    "BCT.Props.C152_refuted",
    "BCT.Props.C152_serializable_partial"
   ],
   "note": "False of the code: a block being added is found by height before it is found by hash. Proved: there always is such an order, with the same answers and the same final chain, and it respects time but for one case: a lookup by hash may come before lookups of other kinds that had ended when it began. Other threads may make any calls on the node meanwhile. Heights below 2^256 less the number of threads; flushes and emissions, which make several changes without a lock, are in C120 and C151."
  },
  {
   "property": "C153",
   "status": "partial",
   "theorems": [
    "BCT.Props.C153_refuted",
    "BCT.Props.C153_off_by_one_partial"
   ],
   "note": "C153_refuted: for every block, after every sequence of programs, there are moments and recovered states with the payment but no block, with the block but no payment, and with a chain that cannot be opened whatever is called and however often the node is started again. C153_off_by_one_partial: at every moment what was flushed is kept, main chain and coins are untouched, chain and gas are each at most one block ahead. Missing: that they agree."
  },
  {
   "property": "C154",
   "status": "partial",
   "theorems": [
    "BCT.Props.C154_refuted",
    "BCT.Props.C154_each_alone_partial"
   ],
   "note": "C154_refuted: after every sequence of programs after which the example works there is a moment with all eight combinations of transaction stored, amount taken and gas taken among the states that may be recovered. C154_each_alone_partial: at every moment what was flushed is kept, each of the three is as before or as after, and nothing else has changed. Missing: that they agree."
  },
  {
   "property": "C155",
   "status": "partial",
   "theorems": [
    "BCT.Props.C155_refuted",
    "BCT.Props.C155_databases_partial",
    "BCT.Props.C155_no_higher"
   ],
   "note": "C155_refuted: from every state of every life, after every flush that has returned, both kinds of loss are possible. C155_databases_partial: what is kept by the databases, and what opens with config files that can be read. C155_no_higher: never longer than before. Missing: config files that are missing, cut short or older than the flush."
  },
  {
   "property": "C156",
   "status": "proved",
   "theorems": [
    "BCT.Props.C156_kept",
    "BCT.Props.C156_no_higher"
   ],
   "note": "Model/Machine.lean: processes that die (each database found in one state it may be recovered to, with the earlier ones still possible after a power failure) and machines that stop. C156_kept: what is kept. C156_no_higher: never longer than before."
  },
  {
   "property": "C157",
   "status": "proved",
   "theorems": [
    "BCT.Props.C157_moment",
    "BCT.Props.C157_deriv",
    "BCT.Props.C157_balances"
   ],
   "note": "C157_moment: each of the seven databases is that of one moment since the flush. C157_deriv: the two databases of a derivative chain. C157_balances: what the node that opens afterwards answers."
  },
  {
   "property": "C158",
   "status": "proved",
   "theorems": [
    "BCT.Props.C158_kept",
    "BCT.Props.C158_open",
    "BCT.Props.C158_no_higher"
   ],
   "note": "C158_kept: after the power failure. C158_open: until it. C158_no_higher: any machine, processes dying and power failing at any points before."
  },
  {
   "property": "C159",
   "status": "proved",
   "theorems": [
    "BCT.Props.C159_moment",
    "BCT.Props.C159_alone",
    "BCT.Props.C159_balances"
   ],
   "note": "C159_moment: each of the seven databases is that of one moment since the flush began. C159_alone: the same when the flush was made alone. C159_balances: what the node that opens afterwards answers."
  },
  {
   "property": "C160",
   "status": "proved",
   "theorems": [
    "BCT.Props.C160_own",
    "BCT.Props.C160_effect",
    "BCT.Props.C160_conserved"
   ],
   "note": "C160_effect: the stages the call passes through, in terms of the object's answers, and what success means. C160_conserved: sums of coins and gas, who can lose. C160_own: the crate's own transactions are a case."
  },
  {
   "property": "C161",
   "status": "partial",
   "theorems": [
    "BCT.Props.C161_refuted",
    "BCT.Props.C161_amount_partial"
   ],
   "note": "False: an object without an amount (get_amount() = None, which the trait allows) passes the gas check and is stored, but the gas is subtracted only inside `if let Some(amount)` (blockchaintree.rs:507-512), so any number of byte strings is stored for nothing. C161_amount_partial: with an amount the named gas payer is charged exactly."
  },
  {
   "property": "C162",
   "status": "proved",
   "theorems": [
    "BCT.Props.C162_own",
    "BCT.Props.C162_chain",
    "BCT.Props.C162_by_hash",
    "BCT.Props.C162_stores",
    "BCT.Props.C162_added"
   ],
   "note": "C162_chain: no gaps, append-only. C162_by_hash: the hash index. C162_stores: transactions and ledgers. C162_added: when a block is accepted and what follows. C162_own: the crate's own objects are a case."
  },
  {
   "property": "C163",
   "status": "partial",
   "theorems": [
    "BCT.Props.C163_refuted",
    "BCT.Props.C163_sites",
    "BCT.Props.C163_data",
    "BCT.Props.C163_calls_partial",
    "BCT.Props.C163_checked_partial",
    "BCT.Props.C163_soft_partial"
   ],
   "note": "False in release builds: add_block accepts a block whose difficulty begins with 0xFF, and the next emission more than 600 s later writes at index usize::MAX of the difficulty through get_unchecked_mut (tools.rs:237-239); validate against such a block does the same. C163_sites: all other unsafe operations, written with their preconditions, never miss one. C163_data: parsing, trees, proofs, reads, opening. C163_calls_partial: for every state the exact condition for every call and for validate; objects from outside. C163_checked_partial: never with overflow checks. C163_soft_partial: never, across crashes, on a node that was not handed such a block."
  },
  {
   "property": "C164",
   "status": "partial",
   "theorems": [
    "BCT.Props.C164_refuted",
    "BCT.Props.C164_calls_partial",
    "BCT.Props.C164_reads_partial",
    "BCT.Props.C164_open_partial",
    "BCT.Props.C164_run_partial"
   ],
   "note": "False: sub_amount above the balance panics on every node (the transaction's abort is unwrapped), and a node killed during a flush can open without its last block, after which every emission of a main block and every first use of a derivative chain panics. C164_calls_partial: the exact condition, for each of the 19 calls, on every node across kills and restarts. C164_reads_partial: no reading call panics on such a node. C164_open_partial: opening never panics, whatever the directory holds. C164_run_partial: on a node that was never killed only the clock makes a main emission panic."
  },
  {
   "property": "C165",
   "status": "proved",
   "theorems": [
    "BCT.Props.C165_count",
    "BCT.Props.C165_halving"
   ],
   "note": "Counts digests, not nonces: how often a nonce succeeds depends on SHA-256, about which nothing is assumed. Chains that reach the all-zero difficulty are left out of the statement because the step is not one bit there (C23_refuted)."
  },
  {
   "property": "C166",
   "status": "proved",
   "theorems": [
    "BCT.Props.C166_local",
    "BCT.Props.C166_damaged"
   ],
   "note": "The calls are those of Op, run one after the other on an open node; restarts, crashes and threads are not part of the statement. Main blocks without transactions are left out at every height, although only the summary of an epoch looks at the accounts. C166_damaged shows for reading and depositing, not for each call left out, that the damage matters."
  },
  {
   "property": "C167",
   "status": "proved",
   "theorems": [
    "BCT.Props.C167_present",
    "BCT.Props.C167_forget",
    "BCT.Props.C167_lookback"
   ],
   "note": "The calls are those of Op on an open node; restarts, crashes and threads are not part of the statement, and looking a block or transaction up is not one of the calls. Op drops the emitted block, but the last block is part of what agrees afterwards."
  },
  {
   "property": "C168",
   "status": "proved",
   "theorems": [
    "BCT.Props.C168_turns",
    "BCT.Props.C168_opens",
    "BCT.Props.C168_unflushed"
   ],
   "note": "Clean shutdowns only: crashes are not part of the statement. First derivative blocks of an owner are left out as in C167."
  },
  {
   "property": "C169",
   "status": "proved",
   "theorems": [
    "BCT.Props.C169_present",
    "BCT.Props.C169_forget"
   ],
   "note": "Calls on an open node: restarts, crashes and threads are not part of the statement (a restart opens derivative chains at the height in their own config file, which Tree.flush does not write), and looking a block up is not one of the calls."
  },
  {
   "property": "C170",
   "status": "proved",
   "theorems": [
    "BCT.Props.C170_unseen",
    "BCT.Props.C170_carried",
    "BCT.Props.C170_accepted"
   ],
   "note": "C170_accepted uses a digest that meets every difficulty and damages one account of a reachable node by hand. C170_unseen does not compare the index of the blocks by hash nor the databases of the last epoch; what the latter hold is C170_carried."
  },
  {
   "property": "C171",
   "status": "proved",
   "theorems": [
    "BCT.Props.C171_spread",
    "BCT.Props.C171_heal",
    "BCT.Props.C171_emptied"
   ],
   "note": "Calls on an open node: restarts, crashes and threads are not part of the statement. The last block is not among the damaged ones, and the derivative chains are the same in both nodes."
  },
  {
   "property": "C172",
   "status": "proved",
   "theorems": [
    "BCT.Props.C172_exact",
    "BCT.Props.C172_nothing",
    "BCT.Props.C172_succeeds",
    "BCT.Props.C172_occurs"
   ],
   "note": "The 19 calls of the model's Op on one thread; errors of sled itself and of the file system are not modelled (DESIGN.md). Shows s.summary f and Shows s.gas g say that f and g are the balances the node displays; they hold of some f and g on every living node."
  },
  {
   "property": "C173",
   "status": "proved",
   "theorems": [
    "BCT.Props.C173_alone",
    "BCT.Props.C173_order",
    "BCT.Props.C173_shared"
   ],
   "note": "Calls are executed one at a time; calls that overlap in time on several threads are the subject of the Threads* properties. Contents means what the stores answer (current contents), not which part of it has been flushed. A main block without transactions is counted as working with all balances at every height. reads and writes are upper bounds; Detached pairs shown to exist: different accounts, coins against gas of one account, payments between different people, derivative chains of different owners, a block with transactions against a transfer."
  },
  {
   "property": "C174",
   "status": "proved",
   "theorems": [
    "BCT.Props.C174_repeat",
    "BCT.Props.C174_later",
    "BCT.Props.C174_doubles"
   ],
   "note": "Contents means what the stores answer, not which part of it has been flushed. The calls are executed one at a time and to the end; a call cut short by a crash and repeated after the restart is not the subject. The nine other calls are shown by one node each."
  },
  {
   "property": "C175",
   "status": "proved",
   "theorems": [
    "BCT.Props.C175_redo",
    "BCT.Props.C175_twice",
    "BCT.Props.C175_credit",
    "BCT.Props.C175_first",
    "BCT.Props.C175_unflushed"
   ],
   "note": "Derivative chains are left out of the comparison: the tree's flush does not reach them (C59). The flushes themselves are left out, because a crash in one can leave a config file that does not open. What a crash can keep of a database is as in the model of sled described in DESIGN.md: the contents after some earlier write since the last flush. C175_redo is about any state, not only those that can arise."
  },
  {
   "property": "C176",
   "status": "proved",
   "theorems": [
    "BCT.Props.C176_redo",
    "BCT.Props.C176_unsaved"
   ],
   "note": "The derivative chains of other owners are left out of the comparison. What a crash can keep of a database is as in C175. C176_redo is about any state whose last main block can be read, not only those that can arise."
  },
  {
   "property": "C177",
   "status": "proved",
   "theorems": [
    "BCT.Props.C177_sum",
    "BCT.Props.C177_order",
    "BCT.Props.C177_refused",
    "BCT.Props.C177_set"
   ],
   "note": "Nodes are those that can arise, crashes included. Blocks and flushes are left out."
  },
  {
   "property": "C178",
   "status": "proved",
   "theorems": [
    "BCT.Props.C178_sum",
    "BCT.Props.C178_all"
   ],
   "note": "A step is one call on the databases, which sled makes atomic. set_amount and derivative chains are left out."
  },
  {
   "property": "C179",
   "status": "proved",
   "theorems": [
    "BCT.Props.C179_accepted",
    "BCT.Props.C179_outcome"
   ],
   "note": "A step is one call on the databases, which sled makes atomic. No block is added meanwhile, so the fee stays; set_amount and derivative chains are left out."
  },
  {
   "property": "C180",
   "status": "proved",
   "theorems": [
    "BCT.Props.C180_enough",
    "BCT.Props.C180_exact",
    "BCT.Props.C180_same",
    "BCT.Props.C180_self"
   ],
   "note": "set_amount and calls on blocks or derivative chains are left out. C180_self shows that C180_exact needs its hypothesis on calls to oneself."
  },
  {
   "property": "C181",
   "status": "proved",
   "theorems": [
    "BCT.Props.C181_orders",
    "BCT.Props.C181_exact"
   ],
   "note": "A step is one call on the databases, which sled makes atomic. No block is added meanwhile. For calls from an account to itself see C182."
  },
  {
   "property": "C182",
   "status": "proved",
   "theorems": [
    "BCT.Props.C182_exact"
   ],
   "note": "A step is one call on the databases, which sled makes atomic. No block is added meanwhile. Extends C180 and C181 to calls from an account to itself."
  },
  {
   "property": "C183",
   "status": "proved",
   "theorems": [
    "BCT.Props.C183_same",
    "BCT.Props.C183_serial",
    "BCT.Props.C183_enough"
   ],
   "note": "A step is one call on the databases, which sled makes atomic. No block is added, nothing is flushed and no balance is set meanwhile. Compared is what can be read, not what has been flushed to disk. Says nothing of schedules in which a call fails."
  },
  {
   "property": "C184",
   "status": "partial",
   "theorems": [
    "BCT.Props.C184_refuted",
    "BCT.Props.C184_refuted_any",
    "BCT.Props.C184_replies_partial",
    "BCT.Props.C184_alone_partial"
   ],
   "note": "False: send_transaction panics alike when the coins have gone since they were checked and when the gas has; in the one case the coins have not been moved, in the other they have. Proved if no send_transaction panics: which calls returned Ok then determines the node, and calls that failed have left nothing, the node being as if only those that returned Ok had been called, in any order that accepts them. A step is one call on the databases, which sled makes atomic. No block is added, nothing is flushed and no balance is set meanwhile. Compared is what can be read, not what has been flushed to disk."
  },
  {
   "property": "C185",
   "status": "proved",
   "theorems": [
    "BCT.Props.C185_cutoffs"
   ],
   "note": "A step is one call on the databases, which sled makes atomic. No block is added, nothing is flushed and no balance is set meanwhile. Compared is what can be read, not what has been flushed to disk. Which of the three a panicked send_transaction has done cannot be told from the replies (C184)."
  },
  {
   "property": "C186",
   "status": "proved",
   "theorems": [
    "BCT.Props.C186_left",
    "BCT.Props.C186_replies"
   ],
   "note": "A step is one call on the databases, which sled makes atomic. No block is added, nothing is flushed and no balance is set meanwhile. Compared is what can be read, not what has been flushed to disk. Without the gas the replies do not tell (C184)."
  },
  {
   "property": "C187",
   "status": "proved",
   "theorems": [
    "BCT.Props.C187_moment",
    "BCT.Props.C187_settled",
    "BCT.Props.C187_gas_needed"
   ],
   "note": "A step is one call on the databases, which sled makes atomic. set_amount and derivative chains are left out."
  },
  {
   "property": "C188",
   "status": "proved",
   "theorems": [
    "BCT.Props.C188_left",
    "BCT.Props.C188_replies",
    "BCT.Props.C188_room_needed"
   ],
   "note": "A step is one call on the databases, which sled makes atomic. No block is added, nothing is flushed and no balance is set meanwhile. Compared is what can be read, not what has been flushed to disk. With neither the coins nor the gas the replies do not tell (C184)."
  },
  {
   "property": "C189",
   "status": "proved",
   "theorems": [
    "BCT.Props.C189_settled"
   ],
   "note": "A step is one call on the databases, which sled makes atomic. No block is added, nothing is flushed and no balance is set meanwhile; derivative chains are left out."
  }
 ]
}
