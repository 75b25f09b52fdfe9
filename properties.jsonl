{"id": "C01", "title": "256-bit integers survive serialization", "statement": "For every 256-bit integer n and every byte string rest: loading the serialization of n followed by rest returns n, and the reported size plus one is exactly the number of bytes the serialization occupies, so the reader resumes at rest.", "quantifier": "every U256 value, every trailing byte string", "why_tests_cant": "2^256 values and arbitrary continuations; the existing test tries one number with nothing after it", "anchors": ["src/tools.rs:dump_u256", "src/tools.rs:load_u256"]}
{"id": "C02", "title": "256-bit integer serialization is minimal and prefix-free", "statement": "The serialization of n is one length byte k followed by the k-byte big-endian representation of n with no leading zero byte (k = 0 for n = 0); two numbers whose serializations are followed by anything can only produce the same bytes if the numbers are equal.", "quantifier": "every pair of U256 values and every pair of continuations", "why_tests_cant": "quantifies over all pairs of numbers and continuations", "anchors": ["src/tools.rs:dump_u256"]}
{"id": "C03", "title": "Announced dump sizes are the real dump sizes", "statement": "get_dump_size of an integer, block header, block or transaction equals the number of bytes its dump produces.", "quantifier": "every integer, header, block and transaction", "why_tests_cant": "the discrepancy only appears at zero-valued fields, which sampling rarely hits", "anchors": ["src/tools.rs:u256_size", "src/block.rs:get_dump_size", "src/transaction.rs:get_dump_size"]}
{"id": "C04", "title": "Loading an integer from untrusted bytes never panics", "statement": "load_u256 and load_biguint return a value or an error for every byte string.", "quantifier": "every byte string", "why_tests_cant": "all lengths and all first bytes", "anchors": ["src/tools.rs:load_u256", "src/tools.rs:load_biguint"]}
{"id": "C05", "title": "Arbitrary-precision integers survive serialization", "statement": "For every non-negative integer: dump_biguint fails exactly when the number needs more than 255 bytes; otherwise load_biguint of the dump followed by anything returns the number and the exact number of bytes consumed; bigint_size is the exact dump length.", "quantifier": "every natural number, every trailing byte string", "why_tests_cant": "unbounded domain", "anchors": ["src/tools.rs:dump_biguint", "src/tools.rs:load_biguint", "src/tools.rs:bigint_size"]}
{"id": "C06", "title": "The two integer formats agree", "statement": "A 256-bit integer stored with dump_u256 is read back as the same number by load_biguint (this is what SummaryDB::get_funds relies on).", "quantifier": "every U256 value", "why_tests_cant": "2^256 values", "anchors": ["src/tools.rs:load_biguint", "src/summary_db.rs:get_funds"]}
{"id": "C07", "title": "Block headers survive serialization", "statement": "Parsing a dumped block header (BasicInfo), with anything after it, returns the same header.", "quantifier": "every header value and every trailing byte string", "why_tests_cant": "all field values", "anchors": ["src/block.rs:BasicInfo::dump", "src/block.rs:BasicInfo::parse"]}
{"id": "C08", "title": "Transaction blocks survive serialization", "statement": "Parsing a dumped TransactionBlock without its header byte returns the same block, whatever its transaction list.", "quantifier": "every transaction block", "why_tests_cant": "all field values and all list lengths", "anchors": ["src/block.rs:TransactionBlock::dump", "src/block.rs:TransactionBlock::parse"]}
{"id": "C09", "title": "Summarize and derivative blocks survive serialization", "statement": "Parsing a dumped SummarizeBlock or DerivativeBlock without its header byte returns the same block.", "quantifier": "every such block", "why_tests_cant": "all field values", "anchors": ["src/block.rs:SummarizeBlock::parse", "src/block.rs:DerivativeBlock::parse"]}
{"id": "C10", "title": "Transactions survive serialization", "statement": "Parsing a dumped Transaction without its header byte returns the same transaction.", "quantifier": "every transaction, every payload", "why_tests_cant": "all field values and all payload lengths", "anchors": ["src/transaction.rs:dump", "src/transaction.rs:parse"]}
{"id": "C11", "title": "A stored main-chain block is read back as the block that was stored", "statement": "deserialize_main_chain_block applied to the dump of a transaction block or summarize block returns that block with its kind; applied to a dump of anything else (derivative block, transaction, unknown header, empty input) it returns an error, never a block.", "quantifier": "every block of every kind and every byte string with a foreign header byte", "why_tests_cant": "all blocks", "anchors": ["src/block.rs:deserialize_main_chain_block", "src/dump_headers.rs:Headers::from_u8"]}
{"id": "C12", "title": "Parsing untrusted bytes never panics", "statement": "BasicInfo::parse, TransactionBlock::parse, SummarizeBlock::parse, DerivativeBlock::parse, Transaction::parse and deserialize_main_chain_block return a value or an error for every byte string.", "quantifier": "every byte string", "why_tests_cant": "all lengths and contents", "anchors": ["src/block.rs:parse", "src/transaction.rs:parse"]}
{"id": "C13", "title": "Different objects never serialize to the same bytes", "statement": "If two blocks or transactions (of any kinds) have the same dump, they are of the same kind and equal field by field (a missing and an empty payload being identified). Hence two different blocks or transactions can only share a hash if SHA-256 collides on their dumps.", "quantifier": "every pair of blocks/transactions", "why_tests_cant": "quantifies over all pairs", "anchors": ["src/block.rs:dump", "src/transaction.rs:dump"]}
{"id": "C14", "title": "The signature covers every field of a transaction", "statement": "The bytes that are hashed for signing determine sender, receiver, timestamp, amount and payload: two transactions with different contents never present the same bytes to the signer, and a dump of anything other than a transaction is never signed.", "quantifier": "every pair of transactions", "why_tests_cant": "quantifies over all pairs", "anchors": ["src/transaction.rs:generate_signature", "src/transaction.rs:hash_without_signature"]}
{"id": "C15", "title": "A transaction signed with the sender's key verifies", "statement": "If Transaction::new succeeds with the private key belonging to the sender's public key, verify on the result returns true; if the private key is malformed new returns an error; the verdict of verify depends on nothing but sender, signature and the signed bytes.", "quantifier": "every transaction content and every key pair", "why_tests_cant": "all key pairs and contents", "anchors": ["src/transaction.rs:Transaction::new", "src/transaction.rs:verify"]}
{"id": "C16", "title": "A transaction's hash is the hash of its dump and survives the wire", "statement": "The hash reported by a transaction built with new, new_signed or parse is the SHA-256 of its dump, and a transaction that is dumped and parsed reports the same hash.", "quantifier": "every transaction", "why_tests_cant": "all contents", "anchors": ["src/transaction.rs:hash", "src/transaction.rs:new_signed"]}
{"id": "C17", "title": "The Merkle root is the root of the padded perfect binary tree", "statement": "For every list of leaves, build_tree touches only memory inside its array and get_root returns the root of the perfect binary tree whose leaves are the list padded with 0xFF hashes up to the next strictly larger power of two, where a parent is the SHA-256 of the bitwise AND of its children.", "quantifier": "every list of leaves of any length", "why_tests_cant": "unbounded lists; the code uses unchecked array accesses", "anchors": ["src/merkletree.rs:build_tree", "src/merkletree.rs:get_root", "src/merkletree.rs:find_closest_power_of_2"]}
{"id": "C18", "title": "Every leaf has a proof that verifies", "statement": "For every list of leaves and every leaf of it, get_proof returns depth-many hashes, its last one is the root, and verify_proof accepts the leaf with the others.", "quantifier": "every list of leaves, every member", "why_tests_cant": "unbounded lists", "anchors": ["src/merkletree.rs:get_proof", "src/merkletree.rs:verify_proof"]}
{"id": "C19", "title": "A Merkle root commits to the list of leaves", "statement": "Two different lists of leaves have different roots unless a SHA-256 collision is exhibited.", "quantifier": "every pair of lists", "why_tests_cant": "quantifies over all pairs of lists", "anchors": ["src/merkletree.rs:build_tree"]}
{"id": "C20", "title": "A Merkle proof cannot be reused for another leaf", "statement": "verify_proof rejects a hash that is not a leaf, when given the proof of some leaf, unless a SHA-256 collision is exhibited.", "quantifier": "every list, every foreign hash, every honest proof", "why_tests_cant": "quantifies over all hashes", "anchors": ["src/merkletree.rs:verify_proof"]}
{"id": "C21", "title": "Leading-zero counting matches the numeric value", "statement": "count_leading_zeros of an n-byte string is 8n minus the bit length of the string read as a big-endian number.", "quantifier": "every byte string", "why_tests_cant": "all strings of all lengths", "anchors": ["src/tools.rs:count_leading_zeros"]}
{"id": "C22", "title": "Proof of work is accepted exactly when the digest is small enough", "statement": "check_pow(hash, difficulty, txs, pow) is true iff SHA-256(hash || merkle root of txs || pow), as a 256-bit number, has at most as many bits as the difficulty; in particular the accepted set only shrinks as leading zeros of the difficulty grow.", "quantifier": "every hash, difficulty, transaction list and nonce", "why_tests_cant": "all inputs", "anchors": ["src/tools.rs:check_pow"]}
{"id": "C23", "title": "Difficulty moves by exactly one bit in the right direction", "statement": "Along the difficulties reachable from the initial one, a block produced in less than 600 s makes the next difficulty exactly one leading zero bit harder, one produced in more than 600 s exactly one bit easier (down to one leading zero), and one produced in exactly 600 s leaves it unchanged.", "quantifier": "every difficulty reachable from the initial one, every pair of timestamps in order", "why_tests_cant": "all 256 reachable levels times all timestamp pairs", "anchors": ["src/tools.rs:recalculate_difficulty", "src/static_values.rs:BEGINNING_DIFFICULTY"]}
{"id": "C24", "title": "Difficulty never drops below one leading zero bit", "statement": "From any difficulty with at least one leading zero bit, any recalculation with timestamps in order succeeds, touches only the 32 bytes of the difficulty and yields a difficulty with at least one leading zero bit; so every difficulty on a chain has between 1 and 256 leading zero bits.", "quantifier": "every 32-byte difficulty with a leading zero bit, every finite sequence of timestamps", "why_tests_cant": "unbounded sequences", "anchors": ["src/tools.rs:recalculate_difficulty"]}
{"id": "C25", "title": "An out-of-order timestamp is never accepted silently", "statement": "A block whose timestamp precedes its predecessor's is rejected.", "quantifier": "every pair of timestamps out of order, both build profiles", "why_tests_cant": "depends on the build profile", "anchors": ["src/tools.rs:recalculate_difficulty"]}
{"id": "C26", "title": "Fees are a fixed price per leading zero bit", "statement": "recalculate_fee is 62500 times the number of leading zero bits, never overflows, is monotone in difficulty and lies between 62 500 and 16 000 000 on every chain difficulty.", "quantifier": "every difficulty", "why_tests_cant": "all 2^256 difficulties", "anchors": ["src/tools.rs:recalculate_fee"]}
{"id": "C27", "title": "Block validation accepts exactly the blocks that satisfy the rules", "statement": "TransactionBlock::validate(Some prev) returns true iff the previous hash matches, the Merkle root is that of the listed transactions, the difficulty is the recalculated one and the proof of work meets the predecessor's difficulty; SummarizeBlock::validate likewise without the Merkle clause; without predecessor every block is accepted. verify_block is the link clause alone.", "quantifier": "every block, every predecessor", "why_tests_cant": "all pairs of blocks", "anchors": ["src/block.rs:validate"]}
{"id": "C28", "title": "Validation pins down height and fee", "statement": "A block that validates has the height following its predecessor's and the fee belonging to its difficulty.", "quantifier": "every pair of blocks", "why_tests_cant": "all pairs of blocks", "anchors": ["src/block.rs:TransactionBlock::validate"]}
{"id": "C29", "title": "Derivative blocks can be validated", "statement": "DerivativeBlock::validate(Some prev) returns true for a well-linked block with sufficient proof of work.", "quantifier": "every derivative block and predecessor", "why_tests_cant": "all pairs", "anchors": ["src/block.rs:DerivativeBlock::validate"]}
{"id": "C30", "title": "A block the node emits passes the node's own validation", "statement": "Every block returned by emmit_new_main_block validates against the block that preceded it.", "quantifier": "every reachable state, every accepted proof of work", "why_tests_cant": "depends on the history and the digest", "anchors": ["src/blockchaintree.rs:emmit_new_main_block", "src/block.rs:validate"]}
{"id": "C31", "title": "add_block appends exactly the block of the next height", "statement": "MainChain::add_block (and the derivative one) succeeds iff the block's height equals the chain height; on success the height grows by one and nothing already stored changes; on an error nothing changes at all. (At the largest height 2^256-1 the call stores the block and then panics.)", "quantifier": "every reachable chain, every block", "why_tests_cant": "all histories", "anchors": ["src/chain.rs:add_block"]}
{"id": "C32", "title": "Stored heights are contiguous", "statement": "In every crash-free history that stays below the largest height 2^256-1, find_raw_by_height(h) returns a block for every h below the height and nothing for any other h, and the block returned for h has height h.", "quantifier": "every sequence of API calls, every h", "why_tests_cant": "unbounded histories", "anchors": ["src/chain.rs:find_raw_by_height", "src/chain.rs:add_block"]}
{"id": "C33", "title": "Blocks are never changed or lost while the node runs", "statement": "Once a block has been accepted, find_by_height and find_raw_by_height keep returning it after any further sequence of calls (below the largest height 2^256-1).", "quantifier": "every history and every continuation of it", "why_tests_cant": "unbounded histories", "anchors": ["src/chain.rs:find_by_height"]}
{"id": "C34", "title": "Lookup by hash returns the block with that hash", "statement": "In every crash-free history below the largest height, find_raw_by_hash(h) returns only bytes whose SHA-256 is h; and it finds every accepted block by its hash unless another accepted block has the same hash.", "quantifier": "every history, every hash", "why_tests_cant": "unbounded histories", "anchors": ["src/chain.rs:find_raw_by_hash", "src/chain.rs:find_by_hash"]}
{"id": "C35", "title": "The last block is the last accepted block", "statement": "Below the largest height 2^256-1, get_last_block returns the most recently accepted block; on a chain built from main-chain blocks it never fails, so the unwrap in the emit functions cannot fire.", "quantifier": "every crash-free history", "why_tests_cant": "unbounded histories", "anchors": ["src/chain.rs:get_last_block", "src/blockchaintree.rs:emmit_new_main_block"]}
{"id": "C36", "title": "Every accepted block can be read back", "statement": "Any block that add_block / add_new_block accepts can be read back by find_by_height.", "quantifier": "every block accepted by the API", "why_tests_cant": "all block kinds", "anchors": ["src/chain.rs:add_block", "src/block.rs:deserialize_main_chain_block"]}
{"id": "C37", "title": "A fresh node starts from the genesis block", "statement": "Opening an empty directory yields height 1, whose only block is the genesis block (summarize block, height 0, inception timestamp, initial difficulty, root founder), and the root address holds the full cycle emission while every other address holds zero.", "quantifier": "every address queried", "why_tests_cant": "all addresses", "anchors": ["src/chain.rs:MainChain::new", "src/blockchaintree.rs:BlockChainTree::new"]}
{"id": "C38", "title": "Emitted chains are hash-linked with correct heights and difficulties", "statement": "On a chain grown only through emmit_new_main_block, each block's previous hash is the hash of the block before it, its height is one more, and its difficulty is the recalculation of its predecessor's.", "quantifier": "every history of emitted blocks", "why_tests_cant": "unbounded histories", "anchors": ["src/blockchaintree.rs:emmit_new_main_block"]}
{"id": "C39", "title": "Epoch blocks and transaction blocks alternate as specified", "statement": "On a chain grown only through emmit_new_main_block, a block whose height is a multiple of 1 000 000 is a summarize block, and every other one is a transaction block with a non-empty transaction list, its Merkle root being that of the list and its fee that of its difficulty.", "quantifier": "every history, every height", "why_tests_cant": "first epoch boundary is at a million blocks", "anchors": ["src/blockchaintree.rs:emmit_new_main_block", "src/static_values.rs:BLOCKS_PER_EPOCH"]}
{"id": "C40", "title": "emmit_new_main_block rejects bad requests without side effects", "statement": "With insufficient proof of work, with transactions at an epoch boundary, or without transactions elsewhere, emmit_new_main_block returns the corresponding error and leaves chain, balances and gas unchanged; otherwise it succeeds and the returned block is the new last block.", "quantifier": "every crash-free single-threaded state, every request", "why_tests_cant": "all states and requests", "anchors": ["src/blockchaintree.rs:emmit_new_main_block"]}
{"id": "C41", "title": "Epoch rotation snapshots the balances", "statement": "When a summarize block is emitted the old balance and gas databases become exactly the balances and gas before the call, the summarize block commits to them, the root balance is reset to the cycle emission, and every other balance and all gas carry over.", "quantifier": "every state at an epoch boundary", "why_tests_cant": "requires a million blocks", "anchors": ["src/blockchaintree.rs:rotate_dbs", "src/blockchaintree.rs:summarize"]}
{"id": "C42", "title": "The summary commitment determines every account", "statement": "The leaf bytes hashed for an account determine its address, coin balance and gas balance, and every account holding coins or gas contributes a leaf.", "quantifier": "every pair of accounts with 33-byte addresses, every ledger", "why_tests_cant": "quantifies over all ledgers", "anchors": ["src/blockchaintree.rs:summarize"]}
{"id": "C43", "title": "The genesis block commits to the initial ledger", "statement": "The Merkle root in the genesis block is the summary of the initial ledger, computed the way later summaries are.", "quantifier": "the single initial ledger, every hash function without a collision on the strings involved", "why_tests_cant": "needs reasoning about hash preimages", "anchors": ["src/chain.rs:MainChain::new", "src/blockchaintree.rs:summarize"]}
{"id": "C44", "title": "Derivative chains are anchored and hash-linked", "statement": "A derivative chain grown through emmit_new_derivative_block starts at height 0 with the hash of a main-chain block as its first previous hash, and from then on each block links to its predecessor by hash, height and recalculated difficulty; emitting for one owner never changes another owner's chain or the main chain.", "quantifier": "every history, every owner", "why_tests_cant": "unbounded histories, all owners", "anchors": ["src/blockchaintree.rs:emmit_new_derivative_block", "src/blockchaintree.rs:get_derivative_chain"]}
{"id": "C45", "title": "Different owners never share a derivative chain", "statement": "Two different owner addresses are stored under different directory names.", "quantifier": "every pair of addresses", "why_tests_cant": "all pairs of 33-byte strings", "anchors": ["src/blockchaintree.rs:get_derivative_chain"]}
{"id": "C46", "title": "Stored transactions are found by their hash", "statement": "After add_transaction, add_transactions, add_new_block or send_transaction, get_transaction(SHA-256 of the dump) returns the transaction, and every entry of the store is keyed by the hash of its bytes.", "quantifier": "every history, every transaction", "why_tests_cant": "unbounded histories", "anchors": ["src/chain.rs:add_transaction", "src/chain.rs:get_transaction"]}
{"id": "C47", "title": "The coin and gas ledgers behave like maps from address to number", "statement": "For every history of add/set/sub/send calls, get_amount and get_gas return what a simple map from addresses to numbers, updated by the same calls, would contain; unknown addresses hold zero; no call panics while decoding a stored balance. (A gas transfer to oneself is the subject of C49.)", "quantifier": "every sequence of ledger calls, every address", "why_tests_cant": "unbounded histories", "anchors": ["src/blockchaintree.rs:add_amount", "src/blockchaintree.rs:get_amount"]}
{"id": "C48", "title": "Transfers conserve the coin supply", "statement": "send_amount and send_transaction never change the sum of all coin balances, whether they succeed, fail or panic.", "quantifier": "every state, every pair of addresses, every amount", "why_tests_cant": "all states", "anchors": ["src/blockchaintree.rs:send_amount", "src/blockchaintree.rs:send_transaction"]}
{"id": "C49", "title": "Gas transfers conserve the gas supply", "statement": "send_gas never changes the sum of all gas balances.", "quantifier": "every state, every pair of addresses, every amount", "why_tests_cant": "all pairs, including equal ones", "anchors": ["src/blockchaintree.rs:send_gas"]}
{"id": "C50", "title": "Nobody can spend more than they own", "statement": "sub_amount, sub_gas, send_amount and send_gas with an amount above the payer's balance do not return success and leave every balance unchanged.", "quantifier": "every state, payer, amount", "why_tests_cant": "all states", "anchors": ["src/blockchaintree.rs:sub_amount", "src/blockchaintree.rs:send_amount"]}
{"id": "C51", "title": "A funded transfer always succeeds", "statement": "If the coin supply fits in 256 bits and the payer holds the amount, send_amount succeeds and cannot overflow the receiver's balance.", "quantifier": "every state, pair, amount", "why_tests_cant": "all states", "anchors": ["src/blockchaintree.rs:send_amount"]}
{"id": "C52", "title": "send_transaction has exactly the documented effect", "statement": "When send_transaction returns success: the transaction is stored, the receiver gained and the sender lost exactly the amount (nothing if they are the same), the sender's gas dropped by the byte price times the dump size, and no other balance changed; when it returns an error nothing changed.", "quantifier": "every state and transaction", "why_tests_cant": "all states", "anchors": ["src/blockchaintree.rs:send_transaction"]}
{"id": "C53", "title": "send_transaction admits only affordable transactions", "statement": "send_transaction succeeds only if the sender's gas covers the byte price of the dump and the sender's coins cover the amount plus the current fee.", "quantifier": "every state and transaction", "why_tests_cant": "all states", "anchors": ["src/blockchaintree.rs:send_transaction"]}
{"id": "C54", "title": "send_transaction is all or nothing", "statement": "If send_transaction does not return success, neither the transaction store nor any balance has changed.", "quantifier": "every state and transaction", "why_tests_cant": "depends on the receiver's balance", "anchors": ["src/blockchaintree.rs:send_transaction"]}
{"id": "C55", "title": "A transaction takes effect at most once", "statement": "Sending the same transaction twice moves the coins once.", "quantifier": "every state and transaction", "why_tests_cant": "history dependent", "anchors": ["src/blockchaintree.rs:send_transaction"]}
{"id": "C56", "title": "Only signed transactions move coins", "statement": "send_transaction does not move coins for a transaction whose signature does not verify.", "quantifier": "every state, transaction and signature scheme", "why_tests_cant": "all signatures", "anchors": ["src/blockchaintree.rs:send_transaction", "src/transaction.rs:verify"]}
{"id": "C57", "title": "Gas is charged for the bytes actually stored", "statement": "The gas charged by send_transaction is the byte price times the length of the stored dump.", "quantifier": "every state and transaction", "why_tests_cant": "only zero amounts differ", "anchors": ["src/blockchaintree.rs:send_transaction", "src/transaction.rs:get_dump_size"]}
{"id": "C58", "title": "A flushed node restarts where it was", "statement": "After tree.flush, closing and reopening yields the same main-chain height, the same answer to every block, transaction, balance and gas query.", "quantifier": "every reachable state, every query", "why_tests_cant": "all states", "anchors": ["src/blockchaintree.rs:flush", "src/blockchaintree.rs:BlockChainTree::new", "src/chain.rs:dump_config"]}
{"id": "C59", "title": "Flushing the tree also saves the derivative chains", "statement": "After tree.flush, closing and reopening yields the same height for every derivative chain.", "quantifier": "every reachable state, every owner", "why_tests_cant": "all states", "anchors": ["src/blockchaintree.rs:flush"]}
{"id": "C60", "title": "Restarting never creates coins", "statement": "Closing and reopening a node does not change the sum of all balances.", "quantifier": "every reachable state", "why_tests_cant": "history dependent", "anchors": ["src/blockchaintree.rs:BlockChainTree::new"]}
{"id": "C61", "title": "Accepted blocks survive a restart", "statement": "A block accepted before a clean shutdown is still returned by height after reopening.", "quantifier": "every history and shutdown point", "why_tests_cant": "depends on whether flush was called", "anchors": ["src/chain.rs:MainChain::new", "src/chain.rs:flush"]}
{"id": "C62", "title": "Lookup by hash stays truthful across restarts", "statement": "After any sequence of calls, crashes and restarts, find_raw_by_hash(h) returns only bytes whose SHA-256 is h.", "quantifier": "every history with crashes", "why_tests_cant": "crash dependent", "anchors": ["src/chain.rs:find_raw_by_hash"]}
{"id": "C63", "title": "A crash at any point never destroys or forges balances", "statement": "After a crash at any point, the recovered coin ledger is the ledger as it was after some prefix of the committed transfers since the last flush; hence transfers are never half applied.", "quantifier": "every history, every crash point", "why_tests_cant": "all crash points", "anchors": ["src/blockchaintree.rs:send_amount"]}
{"id": "C64", "title": "A crash at any point leaves a node that can be opened", "statement": "After a crash at any point, opening the node succeeds.", "quantifier": "every history, every crash point including inside flush", "why_tests_cant": "all crash points", "anchors": ["src/chain.rs:dump_config", "src/chain.rs:MainChain::new"]}
{"id": "C65", "title": "A crash at any point leaves a usable tip", "statement": "After a crash at any point and a successful open, get_last_block returns a block.", "quantifier": "every history, every crash point", "why_tests_cant": "all crash points", "anchors": ["src/chain.rs:flush", "src/chain.rs:get_last_block"]}
{"id": "C66", "title": "Stored entries are never corrupted by crashes", "statement": "After any history with crashes and restarts, every entry of the transaction store is keyed by the hash of its bytes and every stored balance decodes.", "quantifier": "every history with crashes", "why_tests_cant": "all crash points", "anchors": ["src/chain.rs:add_transaction", "src/blockchaintree.rs:add_amount"]}
{"id": "C67", "title": "The transaction order is a total order", "statement": "The order on transactions is reflexive, antisymmetric up to timestamp and hash, transitive and total, ranks earlier timestamps higher, and breaks ties by hash.", "quantifier": "all triples of transactions", "why_tests_cant": "all triples", "anchors": ["src/transaction.rs:Ord for TransactionableItem"]}
{"id": "C68", "title": "Equality agrees with the order", "statement": "Two pool items are equal iff they compare as Equal (the contract of Ord), for transactions and for blocks.", "quantifier": "all pairs", "why_tests_cant": "all pairs", "anchors": ["src/transaction.rs:PartialEq for TransactionableItem", "src/block.rs:Ord for dyn Block"]}
{"id": "C69", "title": "The pool holds each transaction once", "statement": "After any sequence of push and pop the pool never contains two transactions with the same hash, len is the number of transactions held, transaction_exists(h) is true iff one with hash h is held, and push returns false exactly when one is already held and then changes nothing.", "quantifier": "every sequence of push/pop, every transaction", "why_tests_cant": "unbounded histories", "anchors": ["src/txpool.rs:push", "src/txpool.rs:pop"]}
{"id": "C70", "title": "The pool releases transactions oldest first", "statement": "pop returns a transaction such that none held has an earlier timestamp; popping until empty returns every held transaction exactly once in order of timestamp, ties by hash.", "quantifier": "every pool state", "why_tests_cant": "unbounded histories", "anchors": ["src/txpool.rs:pop"]}
{"id": "C71", "title": "Concurrent deposits and withdrawals are not lost", "statement": "For any number of concurrent add_amount calls under any schedule, the final balance is the initial balance plus the sum of the amounts.", "quantifier": "every number of threads, every schedule", "why_tests_cant": "all interleavings", "anchors": ["src/blockchaintree.rs:add_amount"]}
{"id": "C72", "title": "Concurrent transactions conserve coins", "statement": "For any number of concurrent send_transaction calls under any schedule, the sum of all coin balances at every moment equals the initial sum.", "quantifier": "every number of threads, every schedule", "why_tests_cant": "all interleavings", "anchors": ["src/blockchaintree.rs:send_transaction"]}
{"id": "C73", "title": "Concurrent transactions are always charged gas", "statement": "In any schedule of concurrent send_transaction calls, each transaction whose coins have moved and whose call has ended has paid its gas.", "quantifier": "every number of threads, every schedule", "why_tests_cant": "all interleavings", "anchors": ["src/blockchaintree.rs:send_transaction"]}
{"id": "C74", "title": "Concurrent add_block calls at one height: exactly one wins", "statement": "If any number of threads offer blocks of the current height, exactly one call succeeds, in every schedule, and that block is the one stored at the height.", "quantifier": "every number of threads, every schedule", "why_tests_cant": "all interleavings", "anchors": ["src/chain.rs:add_block"]}
{"id": "C75", "title": "A failed emit has no effect even under concurrency", "statement": "If emmit_new_main_block fails because another handle extended the chain meanwhile, balances, gas and snapshots are unchanged.", "quantifier": "every schedule", "why_tests_cant": "all interleavings", "anchors": ["src/blockchaintree.rs:emmit_new_main_block", "src/blockchaintree.rs:get_main_chain"]}
{"id": "C76", "title": "SummaryDB behaves like a map from address to number", "statement": "Through any sequence of add_funds and decrease_funds, get_funds returns what a simple map would contain; decrease_funds beyond the balance or for an unknown address fails without effect.", "quantifier": "every sequence of calls, every address", "why_tests_cant": "unbounded histories", "anchors": ["src/summary_db.rs"]}
{"id": "C77", "title": "SummaryDB calls do not panic", "statement": "add_funds and decrease_funds return success or an error for every address and amount.", "quantifier": "every state, address, amount", "why_tests_cant": "depends on whether the address bytes are UTF-8", "anchors": ["src/summary_db.rs:add_funds", "src/summary_db.rs:decrease_funds"]}
{"id": "C78", "title": "Concurrent SummaryDB deposits are not lost", "statement": "Under any schedule of concurrent add_funds calls the final balance is the initial one plus the sum of the amounts.", "quantifier": "every schedule", "why_tests_cant": "all interleavings", "anchors": ["src/summary_db.rs:add_funds"]}
{"id": "C79", "title": "Header bytes decode to the header they encode", "statement": "Headers::from_u8 inverts the numeric value of every header kind and rejects every other byte.", "quantifier": "every header, every byte", "why_tests_cant": "whole table", "anchors": ["src/dump_headers.rs"]}
{"id": "C80", "title": "Copying a database directory copies it exactly", "statement": "copy_dir_all into an empty or missing destination makes the destination equal to the source, at any nesting depth, and leaves the source unchanged; into an existing directory it overwrites same-named files and keeps the others.", "quantifier": "every directory tree", "why_tests_cant": "unbounded depth", "anchors": ["src/tools.rs:copy_dir_all"]}
{"id": "C81", "title": "Compressed files are read back unchanged", "statement": "decompress_from_file after compress_to_file returns the data, for every data and file name, and overwrites what the file held before. A file that is missing or that the decoder refuses is an error.", "quantifier": "every byte string, every file name", "why_tests_cant": "all data", "anchors": ["src/tools.rs:compress_to_file", "src/tools.rs:decompress_from_file"]}
{"id": "C82", "title": "The summary root is a function of the balances", "statement": "Two nodes on which every address holds the same coins and the same gas compute the same summary root at the end of an epoch.", "quantifier": "every pair of histories", "why_tests_cant": "relates two unbounded histories; depends on which zero balances are stored", "anchors": ["src/blockchaintree.rs:summarize"]}
{"id": "C83", "title": "Proofs of absence of membership fail", "statement": "A proof that get_proof returns for a hash that is not a leaf does not verify against the root.", "quantifier": "every leaf list, every absent hash", "why_tests_cant": "all lists and hashes", "anchors": ["src/merkletree.rs:get_proof", "src/merkletree.rs:verify_proof"]}
{"id": "C84", "title": "The fee is charged", "statement": "A successful send_transaction takes amount plus the current fee from the sender.", "quantifier": "every state, transaction", "why_tests_cant": "needs the effect of the call in every state; the fee is computed and compared", "anchors": ["src/blockchaintree.rs:send_transaction"]}
{"id": "C85", "title": "Blocks list stored transactions, each once", "statement": "Every transaction hash listed in an emitted block is in the transaction store, and no hash is listed twice.", "quantifier": "every state, every list of hashes", "why_tests_cant": "universal over lists of hashes", "anchors": ["src/blockchaintree.rs:emmit_new_main_block"]}
{"id": "C86", "title": "Stored transactions are never lost or changed", "statement": "While the node runs, whatever calls are made, a stored transaction stays in the store with the same bytes, barring a SHA-256 collision.", "quantifier": "every history", "why_tests_cant": "unbounded histories of all calls", "anchors": ["src/chain.rs:add_transaction", "src/chain.rs:get_transaction"]}
{"id": "C87", "title": "Proof of work commits to the block", "statement": "A nonce found for one founder, timestamp and list of transactions is not accepted for another.", "quantifier": "every state, founder, timestamp, list", "why_tests_cant": "relates two runs of the same call", "anchors": ["src/tools.rs:check_pow", "src/blockchaintree.rs:emmit_new_main_block"]}
{"id": "C88", "title": "One proof of work makes one block", "statement": "A nonce that was accepted for one block is not accepted for a different one.", "quantifier": "every history", "why_tests_cant": "relates different chains over unbounded histories", "anchors": ["src/tools.rs:check_pow", "src/blockchaintree.rs:emmit_new_derivative_block"]}
{"id": "C89", "title": "Interrupted calls leave the stores readable", "statement": "Whatever calls are cut short by an I/O error or by dropping their future, at whatever point, and however often the node crashes, every balance of an open node can be read, every stored transaction is found under its hash and parses, and no transaction is lost or changed.", "quantifier": "every history with interruptions and crashes, every interruption point", "why_tests_cant": "an interruption can fall between any two effects of any call in an unbounded history", "anchors": ["src/blockchaintree.rs:send_transaction", "src/chain.rs:add_block", "src/chain.rs:add_transaction"]}
{"id": "C90", "title": "An interrupted send_transaction happened entirely or not at all", "statement": "Wherever send_transaction is cut short, the node is as before the call or as after it.", "quantifier": "every state, transaction, interruption point", "why_tests_cant": "every interruption point of every call", "anchors": ["src/blockchaintree.rs:send_transaction"]}
{"id": "C91", "title": "A failed block addition leaves no trace", "statement": "If add_block is cut short before it has raised the height, every lookup answers as before.", "quantifier": "every state, block, interruption point", "why_tests_cant": "every interruption point of every call", "anchors": ["src/chain.rs:add_block", "src/chain.rs:find_raw_by_height"]}
{"id": "C92", "title": "Interrupted calls never damage the chain", "statement": "Whatever calls are completed or cut short, every height below the chain's height holds a block of that height, the last block can be read, the chain does not shrink, and blocks below its height never change.", "quantifier": "every history with interruptions", "why_tests_cant": "an interruption can fall between any two effects of any call in an unbounded history", "anchors": ["src/chain.rs:add_block", "src/chain.rs:get_last_raw_block"]}
{"id": "C93", "title": "Lookup by hash stays truthful after interrupted calls", "statement": "Whatever calls are cut short, a block found by hash has that hash, and every accepted block is found under its hash.", "quantifier": "every history with interruptions, every hash", "why_tests_cant": "depends on stale entries left by earlier interrupted calls", "anchors": ["src/chain.rs:add_block", "src/chain.rs:find_raw_by_hash"]}
{"id": "C94", "title": "Every epoch adds one cycle's emission", "statement": "When a summarize block is emitted, the total of all coin balances grows by the emission of one cycle.", "quantifier": "every history, every epoch", "why_tests_cant": "an epoch is a million blocks; depends on what the root account holds then", "anchors": ["src/blockchaintree.rs:emmit_new_main_block", "src/blockchaintree.rs:set_amount"]}
{"id": "C95", "title": "The coin supply is bounded by the epochs", "statement": "As long as no balance is written directly (add_amount, set_amount), the total of all coin balances is at most the emission of one cycle times one plus the number of full epochs, so that no transfer can overflow.", "quantifier": "every history", "why_tests_cant": "unbounded histories of all other calls", "anchors": ["src/blockchaintree.rs:emmit_new_main_block", "src/blockchaintree.rs:send_amount", "src/blockchaintree.rs:send_transaction"]}
{"id": "C96", "title": "Timestamps never decrease along the chain", "statement": "On a chain grown by emitting, no block has an earlier timestamp than the one before it.", "quantifier": "every history", "why_tests_cant": "depends on overflow behaviour of the build", "anchors": ["src/blockchaintree.rs:emmit_new_main_block", "src/tools.rs:recalculate_difficulty"]}
{"id": "C97", "title": "Blocks come fast only by meeting high difficulties", "statement": "Among n+1 consecutive blocks with timestamps in order spanning T seconds, one has a difficulty of at least (bits of the first) + n - 2*floor(T/600) leading zero bits, or all 256.", "quantifier": "every emitted chain, every segment", "why_tests_cant": "quantifies over unbounded chains and timestamps", "anchors": ["src/tools.rs:recalculate_difficulty", "src/blockchaintree.rs:emmit_new_main_block"]}
{"id": "C98", "title": "The difficulty takes one of 263 values", "statement": "The difficulty of every block of a chain grown by emitting is 2^(256-k)-1 for some k from 1 to 256 or (2^j-1)*2^248 for some j from 1 to 7, in every build and whatever the timestamps; and each of these values occurs.", "quantifier": "every emitted chain", "why_tests_cant": "unbounded chains; exact invariant of the recalculation", "anchors": ["src/tools.rs:recalculate_difficulty"]}
{"id": "C99", "title": "Concurrent calls never deadlock", "statement": "However many threads emit, add blocks and transactions, send, flush and look blocks up on one node, as long as some call has not ended some thread can make a step; every call ends after a bounded number of its own steps, and the lock is free once all calls have ended.", "quantifier": "any number of threads, every schedule, every state, including calls that fail or panic", "why_tests_cant": "quantifies over all schedules of unboundedly many threads", "anchors": ["src/chain.rs:add_block", "src/blockchaintree.rs:emmit_new_main_block", "src/blockchaintree.rs:send_transaction"]}
{"id": "C100", "title": "A block becomes visible to readers at once", "statement": "While blocks are being added by other threads, a block that a reader has found by its height is from then on found by its hash; lookups never fail, miss a block present when they began, or return a block that is later gone.", "quantifier": "every history, any number of threads, every schedule", "why_tests_cant": "depends on where a lookup falls between the three writes of add_block", "anchors": ["src/chain.rs:add_block", "src/chain.rs:find_raw_by_height", "src/chain.rs:find_raw_by_hash", "src/chain.rs:get_last_raw_block"]}
{"id": "C101", "title": "Every Merkle proof gets an answer", "statement": "verify_proof returns true or false for every proof, namely whether the hash leads along the proof to the root; in particular for whatever get_proof returns.", "quantifier": "every hash, root and proof; every tree", "why_tests_cant": "all proofs, including those of the tree without leaves", "anchors": ["src/merkletree.rs:verify_proof", "src/merkletree.rs:get_proof"]}
{"id": "C102", "title": "Only its dump parses to an object", "statement": "Bytes accepted by BasicInfo::parse, TransactionBlock::parse, SummarizeBlock::parse, DerivativeBlock::parse or Transaction::parse are the dump of the object they return, so that bytes and objects correspond one to one.", "quantifier": "all byte strings", "why_tests_cant": "the accepted inputs other than dumps are unbounded and never produced by dump", "anchors": ["src/block.rs:parse", "src/transaction.rs:parse", "src/tools.rs:load_u256"]}
{"id": "C103", "title": "Concurrent balance calls are linearizable", "statement": "However many threads deposit, withdraw, transfer, set and query balances on one ledger, there is an order of the calls, respecting which call ended before which began, such that every call returns what it returns when they are made one after the other, and the balances are those left by these calls.", "quantifier": "any number of threads, every schedule, every history", "why_tests_cant": "quantifies over all interleavings of unboundedly many threads", "anchors": ["src/blockchaintree.rs:add_amount", "src/blockchaintree.rs:sub_amount", "src/blockchaintree.rs:send_amount", "src/blockchaintree.rs:get_amount"]}
{"id": "C104", "title": "Each call touches only its own part of the node", "statement": "Every public call, started in any state and whatever its outcome, leaves every part of the node it is not meant to change (blocks, references, transactions, height, difficulty, config, coins, old coins, gas, old gas, and each owner's derivative chain) as it was, at its end and at every moment in between; a call on one owner's derivative chain leaves every other owner's alone, and flushing changes nothing but config files.", "quantifier": "every call, every state, every part, every intermediate moment", "why_tests_cant": "the absence of an effect, on all parts of all states", "anchors": ["src/blockchaintree.rs", "src/chain.rs"]}
{"id": "C105", "title": "The difficulty recorded is that of the last block", "statement": "The difficulty a chain keeps in memory and saves in its config file is the difficulty of its last block.", "quantifier": "every history of calls, restarts and crashes", "why_tests_cant": "an invariant over all reachable states", "anchors": ["src/chain.rs:MainChain", "src/chain.rs:dump_config", "src/chain.rs:add_block"]}
{"id": "C106", "title": "A flush under way never makes a node forget", "statement": "A node is flushed; then threads go on adding blocks and transactions, sending, looking blocks up and flushing. If the process dies at any moment and the node opens again, all the blocks it had when it was flushed are there.", "quantifier": "every history before, any number of threads, every schedule including the background writes of tokio files, every crash", "why_tests_cant": "depends on when a background write lands between the steps of another flush", "anchors": ["src/chain.rs:dump_config", "src/chain.rs:flush"]}
{"id": "C107", "title": "A flush that has returned is durable", "statement": "When flush has returned and no other flush is under way, a crash costs none of the blocks that were there when it began.", "quantifier": "every history before, any number of threads, every schedule including the background writes of tokio files, every crash", "why_tests_cant": "the write is pending only until the runtime's thread makes it, and overlapping flushes need exact timing", "anchors": ["src/chain.rs:dump_config", "src/chain.rs:flush"]}
{"id": "C108", "title": "One key, one account", "statement": "The 33 byte strings accepted as public keys correspond one to one to the points of the curve other than the point at infinity, and every valid secret key has exactly one account, which no other secret key has.", "quantifier": "all 33 byte strings, all points, all secret keys", "why_tests_cant": "two encodings of one key, or two keys of one account, are not found by trying keys", "anchors": ["src/transaction.rs:verify", "src/transaction.rs:generate_signature"]}
{"id": "C109", "title": "The root account is open to everyone", "statement": "The secret key published in static_values.rs belongs to the root account, so anyone can sign transactions of any amount from it, to any receiver, that verify; and it is the only secret key with this account.", "quantifier": "all hash functions, nonces, receivers, times, amounts and data", "why_tests_cant": "a test checks one transaction", "anchors": ["src/static_values.rs:ROOT_PRIVATE_ADDRESS", "src/static_values.rs:ROOT_PUBLIC_ADDRESS", "src/transaction.rs:verify"]}
{"id": "C110", "title": "A signature is good for one message", "statement": "If a signature verifies under a key for two digests, the digests are equal.", "quantifier": "all keys, signatures and digests", "why_tests_cant": "the second digest has to be computed from the secret key; random digests are refused", "anchors": ["src/transaction.rs:verify"]}
{"id": "C111", "title": "A transaction has one valid signature", "statement": "If two transactions that agree in everything but the signature both verify, their signatures are equal.", "quantifier": "all keys, transactions and signatures", "why_tests_cant": "the library signs deterministically, so tests see one signature", "anchors": ["src/transaction.rs:verify", "src/transaction.rs:generate_signature"]}
{"id": "C112", "title": "A replica is a copy", "statement": "A fresh node that is handed, in order, all blocks of another node with the transactions they list accepts every one of them and ends up with the same blocks and the same balances.", "quantifier": "every history of the first node", "why_tests_cant": "needs every history, and a test with one account sees equal zeros", "anchors": ["src/blockchaintree.rs:add_new_block", "src/blockchaintree.rs:emmit_new_main_block"]}
{"id": "C113", "title": "The last block commits to the whole chain", "statement": "Two nodes with the same last block have the same height and the same blocks at all heights, unless two different blocks with the same hash are stored at one height.", "quantifier": "every pair of histories", "why_tests_cant": "an induction over chains of any length; tests have one chain", "anchors": ["src/chain.rs:add_block", "src/blockchaintree.rs:emmit_new_main_block"]}
{"id": "C114", "title": "add_block accepts valid blocks only", "statement": "A block add_block accepts passes validation against the last block, as the comment on add_block says.", "quantifier": "every reachable node, every block", "why_tests_cant": "tests offer valid blocks", "anchors": ["src/chain.rs:add_block", "src/block.rs:validate"]}
{"id": "C115", "title": "A call depends only on its own part of the node", "statement": "What a call answers and what it writes depends only on the parts of the node it may read: no call reads the coin and gas databases of the last epoch, the stored transactions or (once open) the config file of the main chain, balance calls depend on their own database only, and one owner's derivative chain does not matter to another's.", "quantifier": "all calls, all pairs of states that agree on the listed parts, every moment of the call, all lists of calls", "why_tests_cant": "noninterference compares pairs of arbitrary states", "anchors": ["src/blockchaintree.rs:BlockChainTree", "src/chain.rs:MainChain", "src/chain.rs:DerivativeChain"]}
{"id": "C116", "title": "Opening is idempotent, interrupted or not", "statement": "However often opening a directory is cut short by crashes, or followed by a clean shutdown, opening it in the end has the same outcome and gives a node with the same contents as opening it undisturbed at the start.", "quantifier": "every directory, any number of attempts, crashes at every moment with every choice of what reached the disk", "why_tests_cant": "crash points and recovered prefixes multiply with every attempt", "anchors": ["src/blockchaintree.rs:new", "src/chain.rs:new"]}
{"id": "C117", "title": "A derivative chain keeps its anchor", "statement": "The main chain block on which an owner's derivative chain begins is fixed when the chain is first opened and never changes afterwards, whatever is called and however often the node crashes and restarts.", "quantifier": "every history of the node before and after, crashes and restarts at every moment", "why_tests_cant": "needs restarts between any two writes, with the main chain growing in between", "anchors": ["src/blockchaintree.rs:get_derivative_chain", "src/chain.rs:DerivativeChain"]}
{"id": "C118", "title": "A derivative chain begins at its anchor", "statement": "When the first block of a derivative chain is emitted, its previous hash is the chain's recorded genesis hash.", "quantifier": "every history of the node with crashes and restarts, every nonce, founder and time", "why_tests_cant": "the main chain must lose the anchor block in a crash and grow again", "anchors": ["src/blockchaintree.rs:emmit_new_derivative_block", "src/chain.rs:find_by_hash"]}
{"id": "C119", "title": "A block emitted amid other threads follows the block below it", "statement": "While other threads add blocks and transactions through main chain handles, flush and look blocks up, a block that emmit_new_main_block returned is from then on found at its height, and the block found one below it is the one it was made from: the new block carries its hash, is one higher, has the difficulty recalculated from it, and its nonce met that block's difficulty.", "quantifier": "every history of the node, any number of other threads and calls, every schedule of their steps", "why_tests_cant": "the race between reading the last block and adding the new one depends on the schedule", "anchors": ["src/blockchaintree.rs:emmit_new_main_block", "src/chain.rs:add_block", "src/chain.rs:get_last_block"]}
{"id": "C120", "title": "A derivative block emitted amid other threads follows the block below it", "statement": "While other threads add blocks to the same derivative chain through their handles, flush it, look blocks up in it and use the main chain, a block that emmit_new_derivative_block returned is from then on found at its height; it carries the hash of the block found one below it, is one higher, has the difficulty recalculated from that block, and its nonce met that block's difficulty; as the first block of the chain it carries the recorded genesis hash, a main chain block with that hash is found, and its difficulty is recalculated from that block's time.", "quantifier": "every history of the node, any number of other threads and calls, every schedule of their steps", "why_tests_cant": "two chains with a lock each, read and written one after the other; the outcome depends on the schedule", "anchors": ["src/blockchaintree.rs:emmit_new_derivative_block", "src/chain.rs:DerivativeChain", "src/chain.rs:find_by_hash"]}
{"id": "C121", "title": "Calls on the node and on a derivative chain never deadlock", "statement": "When threads make calls on the main chain and on one open derivative chain, some of which use the locks of both chains one after the other, then as long as one call has not ended some thread can take a step; every schedule ends after at most 27 steps for each thread; and when all calls have ended, also by errors and panics, both locks are free.", "quantifier": "for all node states, derivative chains, finite sets of threads, calls (valid or not) and schedules", "why_tests_cant": "A deadlock needs one particular interleaving of lock acquisitions; a test runs a few schedules chosen by the runtime and cannot show that no schedule at all blocks, or that no error path leaves a lock taken.", "anchors": ["src/blockchaintree.rs:emmit_new_derivative_block", "src/chain.rs:DerivativeChain", "src/chain.rs:MainChain"]}
{"id": "C122", "title": "Without add_gas no transaction is ever accepted", "statement": "On a node on which nobody ever called add_gas, however often it was stopped, crashed and opened again and whatever else was called, every account has no gas; send_transaction refuses every transaction and changes nothing. In particular no coins, blocks emitted, derivative chains or gas transfers bring gas in.", "quantifier": "for all histories of calls other than add_gas with crashes at any moment, all accounts and all transactions", "why_tests_cant": "Needs all histories: a test can only show that some particular ways to get gas fail.", "anchors": ["src/blockchaintree.rs:send_transaction", "src/blockchaintree.rs:add_gas", "src/blockchaintree.rs:send_gas", "src/summary_db.rs"]}
{"id": "C123", "title": "The books of gas balance", "statement": "Over any history of calls from any state of a running node, the gas there is at the end plus what was used up by successful sub_gas calls and by accepted transactions (625000000000 for each announced byte) equals the gas there was plus what successful add_gas calls granted and what successful transfers to oneself moved (which send_gas creates). On a node started empty on which nobody sent gas to themselves, accepted transactions never cost more gas than was granted.", "quantifier": "for all states of running nodes and all histories of calls, succeeding or failing", "why_tests_cant": "An invariant over unboundedly many calls, including those that fail halfway; a test checks particular sequences.", "anchors": ["src/blockchaintree.rs:send_transaction", "src/blockchaintree.rs:add_gas", "src/blockchaintree.rs:sub_gas", "src/blockchaintree.rs:send_gas", "src/summary_db.rs"]}
{"id": "C124", "title": "The books of coins balance", "statement": "Over any history of calls from any state of a running node, the coins there are at the end plus what was subtracted by successful sub_amount calls and what was written over by set_amount and by the emission at the end of epochs equals the coins there were plus what successful add_amount and set_amount calls put in and one cycle's emission for every epoch that ended. Transfers, transactions and everything else neither create nor destroy coins, also when they fail halfway.", "quantifier": "for all states of running nodes below height 2^256 - 1 and all histories of calls, succeeding or failing", "why_tests_cant": "An invariant over unboundedly many calls across epochs of a million blocks; a test checks particular short sequences.", "anchors": ["src/blockchaintree.rs:send_transaction", "src/blockchaintree.rs:emmit_new_main_block", "src/summary_db.rs"]}
{"id": "C125", "title": "The end of an epoch makes exact copies on disk and touches nothing else", "statement": "When the node rotates its databases, the two directories of old balances on disk end up as exact copies of the directories of current balances: every file with its content and nothing else, whatever was in the old directories. At every moment until then, everything else on the disk, the current databases and the chain included, is as it was before.", "quantifier": "for all file systems in which the four directories exist, all contents of them of any depth, all orders in which the operating system lists directories, and all moments at which the process may die", "why_tests_cant": "A test rotates small directories and looks at the result; it does not stop the process at every system call, nor see every leftover of an earlier copy.", "anchors": ["src/blockchaintree.rs:rotate_dbs", "src/tools.rs:copy_dir_all"]}
{"id": "C126", "title": "The old balances on disk are never lost while they are replaced", "statement": "Whenever the process dies while the node rotates its databases, the directory of old balances on disk is the one of before or an exact copy of the current one.", "quantifier": "for all file systems in which the four directories exist, all orders of listing, and all moments at which the process may die", "why_tests_cant": "The moments are between system calls of one function; a test cannot stop the process at each of them for every content.", "anchors": ["src/blockchaintree.rs:rotate_dbs", "src/tools.rs:copy_dir_all"]}
{"id": "C127", "title": "A node does what an abstract node does", "statement": "A node started in an empty directory behaves, call after call, as an abstract node that is only a list of blocks, a list of transactions, books of natural numbers for coins and gas (now and at the end of the last epoch) and one list of blocks for every derivative chain: every call ends in the same way (done, refused, panic, undefined), every block returned by a mining call is the same, and every question (heights, blocks by height, digest or position, transactions, balances, the summary of all balances, open derivative chains and their anchors) has the same answer.", "quantifier": "for all digest functions and build profiles, all finite sequences (shorter than 2^256 - 1) of public calls with any arguments, and all questions after them", "why_tests_cant": "It compares the code, with its databases, indices, byte encodings and configuration, with a specification over every sequence of calls; tests only run some sequences.", "anchors": ["src/blockchaintree.rs:BlockChainTree", "src/chain.rs:MainChain", "src/chain.rs:DerivativeChain", "src/tools.rs:recalculate_difficulty", "src/merkletree.rs:MerkleTree"]}
{"id": "C128", "title": "A node that is stopped in an orderly way goes on as the abstract node", "statement": "If before every stop the open derivative chains and the node are flushed, then however the process ends after that, the next process opens the directory, and over the whole life of the node, any number of restarts included, every reply and every answer is that of the abstract node of C127; of that abstract node a restart only closes the derivative chains, which are opened again as they were, and, while there is only one block, gives the root account its first coins again.", "quantifier": "for all digest functions and build profiles, all finite sequences (of fewer than 2^256 - 1 calls) of public calls and orderly restarts, all ways in which a flushed process can end, and all questions after them", "why_tests_cant": "It needs every sequence of calls and restarts and everything a database may recover to; tests run a few.", "anchors": ["src/blockchaintree.rs:BlockChainTree::new", "src/blockchaintree.rs:flush", "src/chain.rs:MainChain::new", "src/chain.rs:DerivativeChain::new", "src/chain.rs:dump_config"]}
{"id": "C129", "title": "emmit_new_derivative_block rejects bad requests without side effects", "statement": "A request for a derivative block that is not granted leaves the node as it was; a request with enough work is granted, its block follows the last block of the owner's chain (or the main block the chain is anchored at) and becomes the last block of the chain.", "quantifier": "every sequence of public calls on a node started empty, every owner, nonce and time", "why_tests_cant": "the effect of a refused request shows only when the main chain has grown and the owner opens the chain; needs all histories", "anchors": ["src/blockchaintree.rs:emmit_new_derivative_block", "src/blockchaintree.rs:get_derivative_chain"]}
{"id": "C130", "title": "Concurrent calls are linearizable", "statement": "However many threads add blocks and transactions, change and query balances and look blocks up, there is an order of the calls, respecting which call ended before which began, such that the calls made one after the other in this order return the same and lead to the same state.", "quantifier": "every history, any number of threads, every mix of these calls, every schedule", "why_tests_cant": "an order has to be found for every interleaving of the steps of any number of calls", "anchors": ["src/chain.rs:add_block", "src/chain.rs:find_raw_by_height", "src/chain.rs:find_raw_by_hash", "src/chain.rs:get_last_raw_block", "src/blockchaintree.rs:add_amount", "src/blockchaintree.rs:get_amount"]}
{"id": "C131", "title": "Concurrent transactions of different senders are linearizable", "statement": "However many threads send transactions, no two of the same sender or with the same hash, while others look blocks up, store other transactions, deposit coins and change and query balances without taking coins or gas from a sender, there is an order of the calls, respecting which call ended before which began, such that the calls made one after the other in this order return the same and leave the same contents.", "quantifier": "every history, any number of threads, every such set of calls, every schedule", "why_tests_cant": "send_transaction checks first and then makes three changes without a lock; an order has to be found for every interleaving of the steps of any number of calls", "anchors": ["src/blockchaintree.rs:send_transaction", "src/blockchaintree.rs:send_amount", "src/blockchaintree.rs:sub_gas", "src/chain.rs:add_transaction"]}
{"id": "C132", "title": "What was flushed survives a power failure", "statement": "For every history of a node, power failures at any points included: once flush has returned, a power failure leaves a directory that opens, at the flushed height or above, with every block below the flushed height unchanged.", "quantifier": "every history, every power failure after the flush, every state in which the unsynced files may be found", "why_tests_cant": "tests cannot cut the power; the config file is written without being synced, and every content it has had since the machine was started may be found", "anchors": ["src/chain.rs:dump_config", "src/chain.rs:flush", "src/blockchaintree.rs:flush"]}
{"id": "C133", "title": "The mining example is paid exactly once for each block", "statement": "Run the three example programs one after the other on one directory, in any order and any number of times, each ending in whatever way after the flush of its last block. The mining example then opens the directory and never panics. Every block it mines names the wallet as founder, and after it the wallet holds one payment for each block of the main chain, plus the fee of each block that does not end an epoch, less 228 for each transaction sent; the root account holds what it was given at the beginning of the epoch, less the payments, plus what was sent to it in the epoch; nobody else holds anything. A round in which nothing is mined means that no nonce below U256::MAX is good.", "quantifier": "all sequences of programs, all numbers of rounds below 10^50, all readings of the clock (not decreasing in builds with overflow checks), all digests, all states the databases may be found in after each program", "why_tests_cant": "a test mines a few blocks once; epochs end after a million blocks, and restarts between programs multiply the histories", "anchors": ["examples/mine.rs", "src/blockchaintree.rs:emmit_new_main_block", "src/blockchaintree.rs:send_amount", "src/blockchaintree.rs:flush"]}
{"id": "C134", "title": "The derivative mining example is given gas exactly once for each block", "statement": "After any sequence of example programs the derivative mining example opens the directory and never panics. The wallet's chain then has all blocks mined on it by all runs, each founded by the wallet; the wallet's gas is one payment for each of them, less 141 * 625000000000 for each transaction sent; nobody else has gas; the main chain and the coins are as before. A round in which nothing is mined means that no nonce below U256::MAX is good.", "quantifier": "all sequences of programs, all numbers of rounds below 10^50, all readings of the clock, all digests, all states the databases may be found in after each program", "why_tests_cant": "the chain has to be found again by every run, with the anchor and the difficulty it was left with", "anchors": ["examples/mine_derivative.rs", "src/blockchaintree.rs:emmit_new_derivative_block", "src/blockchaintree.rs:get_derivative_chain", "src/chain.rs:flush"]}
{"id": "C135", "title": "The sending example works exactly when the wallet can pay", "statement": "After any sequence of example programs the sending example succeeds if and only if the secret is a valid key, the wallet has mined at least one main chain block and the gas mined covers all transactions sent, this one included. Then the transaction can be looked up as it was made, the money and the gas have been moved exactly once, and the block mined for it, if it does not end an epoch, contains exactly the transaction's digest. In every other case the program panics.", "quantifier": "all sequences of programs, all readings of the clock, all digests and signature schemes", "why_tests_cant": "whether it works depends on all blocks mined and all transactions sent before", "anchors": ["examples/send_transaction.rs", "src/blockchaintree.rs:send_transaction", "src/transaction.rs:new"]}
{"id": "C136", "title": "A miner killed at any moment has been paid for exactly the blocks it leaves", "statement": "Kill the mining example at any point of any call it makes, after any sequence of example programs. If the directory can then be opened, the chain found there and the wallet agree: one payment and one fee for each block. (False: between the emission and the end of the flush a crash can leave the payment without the block, the block without the payment, or a config file that cannot be read. Proved: nothing that was flushed is lost, all its blocks are there and paid, and chain and wallet are each at most one block ahead.)", "quantifier": "all sequences of programs, all numbers of rounds below 10^50, all moments, all states the databases may be found in", "why_tests_cant": "the program has to be stopped at every single write, in every state sled may recover to", "anchors": ["examples/mine.rs", "src/blockchaintree.rs:emmit_new_main_block", "src/blockchaintree.rs:flush", "src/chain.rs:dump_config"]}
{"id": "C137", "title": "What was done before a flush survives a crash, and the ledgers found are those of one moment", "statement": "Any number of threads make any calls on the node, and the process dies at any moment after some thread's flush has returned. The coins and the gas found on disk are what they were at one moment since that flush began; in particular all that was done before it is there, and no coins are lost or made. (False: a transaction sent while the flush is between the two ledgers can be found with its gas charged and its coins not moved, although both calls have returned. Proved: each of the seven databases by itself is what it was at some moment since the flush began, and the coins add up.)", "quantifier": "all numbers of threads, all calls, all schedules, all moments of the crash, all states the databases may be found in", "why_tests_cant": "a test sees one schedule and one crash; the loss needs a transaction between two writes of a flush and a crash that drops what was not yet written", "anchors": ["src/blockchaintree.rs:flush", "src/blockchaintree.rs:send_transaction", "src/chain.rs:flush", "src/blockchaintree.rs:rotate_dbs"]}
{"id": "C138", "title": "A node that is killed and started again is a list of blocks, a list of transactions and some tables, of which some of the end may be lost", "statement": "A new node is called, killed and started again in any order; it may be killed between two calls, at any point inside a call that writes no configuration file, and while it begins. Every start succeeds. The replies, and the answers to all questions afterwards, are those of an abstract node (Spec/Frail.lean): a restart takes the main chain back to its last flush (to the first block if there was none) and every derivative chain to its own, any number of later blocks and index entries stay in the files above the chain and are found there, the transactions lose some of the latest not flushed, and each of the four tables is what it was at any moment since it was last flushed, independently of the others. Conversely all this can happen.", "quantifier": "all sequences of calls, deaths and restarts shorter than 2^256, all inputs, all points of death, all states the databases may be found in", "why_tests_cant": "there are unboundedly many histories, and after every death the databases may be found in any combination of states; a test sees one", "anchors": ["src/blockchaintree.rs:new", "src/chain.rs:new", "src/chain.rs:flush", "src/chain.rs:add_block", "src/blockchaintree.rs:flush", "src/blockchaintree.rs:rotate_dbs", "src/blockchaintree.rs:get_derivative_chain"]}
{"id": "C139", "title": "Stored transactions are paid for", "statement": "On a node started empty to which transactions come only through send_transaction, and on which nobody sends gas to themselves, the bytes of all stored transactions, at the price of 625000000000 gas each, together with the gas that is left, never cost more than the gas that was granted.", "quantifier": "all histories of calls, succeeding or failing", "why_tests_cant": "the bound is about all histories; the calls that break it (a receiver whose balance overflows) are not in any test", "anchors": ["src/blockchaintree.rs:send_transaction", "src/blockchaintree.rs:sub_gas", "src/chain.rs:add_transaction"]}
{"id": "C140", "title": "When blocks stop coming, mining gets easier", "statement": "On a chain grown by emitting blocks, a nonce that meets the difficulty the chain started with is enough for the next block if only that block is late enough: a chain whose miners have left does not stay at the difficulty they left behind.", "quantifier": "all emitted chains, nonces, timestamps and hash functions", "why_tests_cant": "it is about difficulties reached after long histories and about times that never come; a test emits a few blocks", "anchors": ["src/tools.rs:recalculate_difficulty", "src/blockchaintree.rs:emmit_new_main_block", "src/tools.rs:check_pow"]}
{"id": "C141", "title": "Branches do not share work", "statement": "If two nodes that emit their blocks or validate those they are handed differ at some height, then no proof of work of a block above that height on the one node is the proof of work of any block of the other node, unless two different blocks have the same hash: whoever rewrites a block has to do the work of every block above it again.", "quantifier": "all pairs of histories, all lists of transactions, all hash functions", "why_tests_cant": "it relates two unbounded histories and every pair of blocks in them", "anchors": ["src/tools.rs:check_pow", "src/blockchaintree.rs:emmit_new_main_block", "src/block.rs:validate"]}
{"id": "C142", "title": "The getters of a block say what its bytes say", "statement": "The dump of every block consists of the byte of its kind, the root, the timestamp, the previous hash, the nonce, the difficulty, the founder, the height, the fee and the transactions exactly as get_type, get_merkle_root, get_info, get_founder, get_fee and transactions give them; a derivative block has no root, fee or transactions and only its get_merkle_root panics.", "quantifier": "all blocks of the three kinds", "why_tests_cant": "a test compares the getters of a few blocks with the values they were made from, not with the bytes that are hashed and stored", "anchors": ["src/block.rs:get_info", "src/block.rs:get_type", "src/block.rs:get_merkle_root", "src/block.rs:get_fee", "src/block.rs:get_founder", "src/block.rs:transactions", "src/block.rs:dump"]}
{"id": "C143", "title": "A light client is only convinced of what a block lists", "statement": "If verify_proof accepts a hash against the Merkle root of a block of the chain, then the block lists that hash, unless SHA-256 collides.", "quantifier": "all chains of emitted blocks, all blocks of them, all hashes, all proofs whoever made them", "why_tests_cant": "a test verifies honest proofs and a few damaged ones; a forger chooses the hash and every entry of the proof", "anchors": ["src/merkletree.rs:verify_proof", "src/merkletree.rs:get_proof", "src/merkletree.rs:build_tree", "src/blockchaintree.rs:emmit_new_main_block", "src/blockchaintree.rs:summarize"]}
{"id": "C144", "title": "One block cannot shut the other miners out", "statement": "After any emitted block, a miner whose clock has passed the date of the block before it and who has a nonce that fits can emit the next block.", "quantifier": "all emitted chains, blocks, dates, nonces and miners", "why_tests_cant": "a test emits blocks of ordinary dates; the attack is one block of a chosen date and its effect on all later calls", "anchors": ["src/blockchaintree.rs:emmit_new_main_block", "src/tools.rs:recalculate_difficulty"]}
{"id": "C145", "title": "A transaction is listed by one block", "statement": "No two blocks of an emitted chain list the same transaction.", "quantifier": "all emitted chains, all pairs of heights, all transactions", "why_tests_cant": "a test lists each transaction once; whether a second listing is refused depends on all blocks before", "anchors": ["src/blockchaintree.rs:emmit_new_main_block"]}
{"id": "C146", "title": "A call cut short neither blocks the other threads nor damages the chain", "statement": "Any number of threads emit blocks, add blocks and transactions, send, transfer, flush and look blocks up on a shared node, and any of these calls is cut short at any point (a failed access, a panic, a dropped future). Under every schedule: as long as some call has not ended some thread can make a step, every call ends within a fixed number of steps, and the height lock is free in the end; at every moment the chain is intact below its height, has not shrunk and has lost or changed no block; every balance stays readable and every stored transaction stays findable; sending and flushing keep the sum of the coin balances; a lookup that is not cut short is answered as if none had been; a block whose addition succeeded stays in the chain.", "quantifier": "all histories of the node, all numbers of threads, all calls, all points of cutting short, all schedules", "why_tests_cant": "a test interrupts one call at one point under one schedule; the points of interruption of all threads and all interleavings are unbounded", "anchors": ["src/chain.rs:add_block", "src/blockchaintree.rs:emmit_new_main_block", "src/blockchaintree.rs:send_transaction", "src/chain.rs:get_last_raw_block"]}
{"id": "C147", "title": "What is left of a node killed in the middle of writing things out", "statement": "A node starts with empty files. Any calls follow, and the process is killed between them, inside any of them (a flush of either chain or the end of an epoch too) or in the middle of starting again, any number of times. As long as the files left can be read and hold the blocks they count, the replies and all later answers are exactly those that an abstract node may give: one that consists of blocks, transactions and balances, of which a prefix written no earlier than what the last complete flush wrote survives, and that counts either the blocks last written out or those it had when the flush began; the balances put aside at the end of an epoch are the old ones, none, or the new ones, the coins' before the gas's. If the files left are not like that, either no later start succeeds, or the node starts with the height it had, all blocks counted before are there, and some counted since are missing, or the call was a flush of a derivative chain and the same holds of that chain, or that chain can never be opened again.", "quantifier": "all sequences of calls, crashes and deaths inside any call, all points of death, all subsets of unwritten data that may be lost, all numbers of interrupted starts, all hash functions", "why_tests_cant": "the points of death, what may be lost at each and all later histories are unbounded", "anchors": ["src/blockchaintree.rs:flush", "src/blockchaintree.rs:rotate_dbs", "src/chain.rs:dump_config", "src/chain.rs:flush"]}
{"id": "C148", "title": "Calls cut short do not damage or block the derivative chains", "statement": "On a node any of whose earlier calls was cut short at any point (a failed access, a panic, a dropped future), every derivative chain is intact: every height below its own has a readable derivative block of that height, found also by its hash and as last block; later calls, whole or cut short, neither shrink it nor lose or change a block. Any number of threads then make calls on the node and on one derivative chain, any of them cut short anywhere, under every schedule: some thread can always make a step until all calls have ended, every call takes boundedly many steps and both locks are free in the end; both chains stay intact and only grow; a block whose addition or emission succeeded stays in its chain; an emitted one that is not the first is built on the block one below it; a lookup that is not cut short is answered as if no call had been.", "quantifier": "all histories with calls cut short, all numbers of threads, all calls, all points of cutting short, all schedules", "why_tests_cant": "a test interrupts one call at one point under one schedule; the histories, points of interruption and interleavings are unbounded", "anchors": ["src/chain.rs:DerivativeChain::add_block", "src/blockchaintree.rs:emmit_new_derivative_block", "src/chain.rs:DerivativeChain::get_last_raw_block"]}
{"id": "C149", "title": "A node many threads use, killed and started again many times", "statement": "Take any life of a node from an empty directory on, made of any number of stretches: it is opened, gets calls one at a time, is used by any number of threads at once any of whose calls may be cut short anywhere, is killed at any moment (while opening, between calls, in the middle of a call, amid the threads' work) with any recoverable state left on disk, and is started again; only the calls that write the config file are made one at a time and not killed in the middle. Then it can always be opened again; whenever it is open, and at every moment while threads use it, every height below that of the chain has a readable block of that height, the last block being the highest, and threads neither shrink the chain nor change a block; what it had when flushed (height, blocks, transactions) it has at every later moment of this life and all later ones; a block whose addition by a thread succeeded is found as it was added, after a flush ever after; every balance is readable and every transaction found is the one with that hash.", "quantifier": "all numbers of lives, crashes, threads and calls, all points of cutting short, all schedules, all states recoverable after each crash", "why_tests_cant": "tests kill one process at one moment under one schedule; the sequences of crashes and restarts, the interleavings and what the database recovers are unbounded", "anchors": ["src/chain.rs:add_block", "src/chain.rs:MainChain::new", "src/chain.rs:flush", "src/chain.rs:add_transaction", "src/blockchaintree.rs:new", "src/blockchaintree.rs:send_transaction", "src/blockchaintree.rs:emmit_new_main_block"]}
{"id": "C150", "title": "Derivative chains come back after a crash", "statement": "Whenever a node was stopped at any moment, with any recoverable state left on disk, and is opened again and has its last main block, get_derivative_chain succeeds for every owner, and the chain it gives is in order: every height below its own has a readable block of that height, and the last block is the highest one. What a derivative chain had when its flush succeeded (height and blocks) it has at every later moment, in this life of the process and in all later ones.", "quantifier": "all sequences of calls, crashes at any moment and restarts, all owners, all states recoverable after each crash", "why_tests_cant": "a test kills the node at a few chosen moments; the moment of the crash, what the database recovers and the number of crashes are unbounded, and the loss shows only at a later emission", "anchors": ["src/chain.rs:DerivativeChain::new", "src/chain.rs:DerivativeChain::dump_config", "src/chain.rs:DerivativeChain::flush", "src/chain.rs:DerivativeChain::add_block", "src/blockchaintree.rs:get_derivative_chain", "src/blockchaintree.rs:emmit_new_derivative_block"]}
{"id": "C151", "title": "A derivative chain many threads use, on a node killed and started again many times", "statement": "Take any life of a node in which calls are made one at a time or by any number of threads at once on the node and a derivative chain, calls of threads may be cut short, the process is killed at any moment and started again, except that flushes of the derivative chain are made one at a time and come to their end. Then whenever the node has its last main block the derivative chain can be opened; whenever it is open, in the middle of the threads' work included, every height below its own has a readable block of that height and the last block is the highest one; while threads use it, it never shrinks, no block below its height changes and its anchor stays. A block a thread added or emitted is found in it, an emitted block built on the block one below it, and after a flush it is found at every later moment in all later lives of the process.", "quantifier": "all lives with any number of crashes, restarts and cut calls, all numbers of threads, all interleavings, all owners, all states recoverable after each crash", "why_tests_cant": "the interleavings, the moments of the cuts and crashes and the recovered states are unbounded and combine; a test samples a few", "anchors": ["src/chain.rs:DerivativeChain::new", "src/chain.rs:DerivativeChain::add_block", "src/chain.rs:DerivativeChain::flush", "src/chain.rs:DerivativeChain::find_by_height", "src/blockchaintree.rs:get_derivative_chain", "src/blockchaintree.rs:emmit_new_derivative_block"]}
{"id": "C152", "title": "Concurrent calls on a derivative chain are linearizable", "statement": "However many threads add blocks to a derivative chain and look blocks up in it, while others use the node, there is an order of the calls on the derivative chain, respecting which call ended before which began, such that the calls made one after the other in this order return the same and lead to the same chain.", "quantifier": "every history, any number of threads on the chain and on the node, every mix of these calls, every schedule", "why_tests_cant": "the number of threads and of their interleavings is unbounded, and what must exist is an order of all calls", "anchors": ["src/chain.rs:DerivativeChain::add_block", "src/chain.rs:DerivativeChain::find_raw_by_height", "src/chain.rs:DerivativeChain::find_raw_by_hash", "src/chain.rs:DerivativeChain::get_last_raw_block"]}
{"id": "C153", "title": "The derivative miner, killed at any moment, has gas for exactly the blocks it leaves", "statement": "Kill the derivative mining example at any point of any call it makes, after any sequence of example programs. If another program can then open the directory and the wallet's chain, the chain and the wallet's gas agree: one payment for each block. (False: with every block there are moments at which a crash leaves the payment without the block, the block without the payment, or a chain that no later program can open. Proved: the main chain and the coins are as before, no flushed block of the wallet's chain is lost, chain and gas are each at most one block ahead, and nobody else has gas.)", "quantifier": "all sequences of programs, all numbers of rounds below 10^50, all moments, all states the databases may be found in", "why_tests_cant": "the program has to be stopped at every single write, in every state sled may recover to", "anchors": ["examples/mine_derivative.rs", "src/blockchaintree.rs:emmit_new_derivative_block", "src/blockchaintree.rs:add_gas", "src/chain.rs:DerivativeChain::flush", "src/chain.rs:DerivativeChain::dump_config"]}
{"id": "C154", "title": "The sending example, killed at any moment, leaves the transaction, its amount and its gas together", "statement": "Kill the transaction-sending example at any point of any call it makes, after any sequence of example programs. If another program can then open the directory, the chain, the wallet and its gas agree: the amount has been taken exactly if the gas has. (False: whenever the example works there is one moment at which a crash leaves the transaction stored or not, the amount taken or not, and the gas taken or not, in all eight combinations, with the chain as it was. Proved: at every moment no flushed block is lost, the amount is taken at most once, the gas at most once, the block paid for at most once and only after the amount is taken; every other transaction is found as before; nobody else has gas; the files of the derivative chains are the same.)", "quantifier": "all sequences of programs, all clocks, all moments, all states the databases may be found in", "why_tests_cant": "the program has to be stopped at every single write, in every combination of states the three databases may recover to", "anchors": ["examples/send_transaction.rs", "src/blockchaintree.rs:send_transaction", "src/blockchaintree.rs:send_amount", "src/blockchaintree.rs:sub_gas", "src/chain.rs:add_transaction"]}
{"id": "C155", "title": "A flushed derivative chain survives a power failure", "statement": "When the flush of a derivative chain has returned and then the power fails, the chain can be opened again with at least the height it had and the same blocks. (False: the config file is written without being synced. However the node has come to be, a power failure after the flush can leave a directory that opens but in which this chain can never again be opened; and if the chain was begun since the machine was started, one in which it opens empty, anchored at another block. Proved: the block database keeps every flushed block whatever is called later; every config file that can be read opens the chain at its height with the flushed blocks up to there; the file as last written opens it at the flushed height or above with its anchor; and the chain never appears longer than it was.)", "quantifier": "all lives of a node with power failures, all owners, all calls after the flush, all contents the files may be found with", "why_tests_cant": "tests do not cut the power; which contents of an unsynced file are found depends on the machine", "anchors": ["src/chain.rs:DerivativeChain::flush", "src/chain.rs:DerivativeChain::dump_config", "src/chain.rs:DerivativeChain::new", "src/blockchaintree.rs:get_derivative_chain"]}
{"id": "C156", "title": "What has been flushed survives processes that die followed by a power failure", "statement": "sled syncs its files in flush_async only, so what a process leaves when it dies is read by the next one but may still be lost when the machine stops. Once BlockChainTree::flush has returned, then whatever is called, and however often the process dies at any moment (inside a call or inside new) and the node is opened again on the running machine: after a power failure at any moment, whatever is then found in the config file, the databases have every flushed block unchanged and every flushed transaction; with a config file that can be read and has a height, the node opens at this height and returns the flushed blocks up to it; with the file as last written, if it can be read, it opens at the flushed height or above and no flushed block is missing; whenever the node is open before the failure, no flushed block is missing either; and a failure while no call is running never makes the chain appear longer than it was, even if it cuts the config file short. The machine may have had any number of power failures and dead processes before.", "quantifier": "all machines with any number of power failures, dead processes and calls, all moments of death and failure, all states each database may be recovered to, all contents of the config file", "why_tests_cant": "tests neither kill processes inside calls nor cut the power; the combinations of what each database is recovered to are without bound", "anchors": ["src/blockchaintree.rs:flush", "src/blockchaintree.rs:new", "src/chain.rs:MainChain::flush", "src/chain.rs:MainChain::new", "src/chain.rs:dump_config"]}
{"id": "C157", "title": "A power failure takes each ledger back to one moment since the last flush", "statement": "Once BlockChainTree::flush has returned, on a node in any state, then whatever is called, and however often the process dies at any moment and the node is opened again on the running machine: after a power failure at any moment each database of the tree (coins, gas, the copies of both from the last epoch, transactions, blocks, heights) is found exactly as it was at one moment since the flush, never as a mixture of moments. The node that opens on it answers with the balances of one such moment (the root account excepted at height 1), the gas of one such moment and the transactions of one such moment. The databases of a derivative chain are found so after its own flush. (The moments of two databases may differ, see C137 and C154.)", "quantifier": "all states in which flush is called, all calls, deaths and openings after it, all moments of the power failure, all states each database may be recovered to", "why_tests_cant": "tests neither kill processes inside calls nor cut the power; the combinations of what each database is recovered to are without bound", "anchors": ["src/blockchaintree.rs:flush", "src/blockchaintree.rs:new", "src/blockchaintree.rs:rotate_dbs", "src/chain.rs:MainChain::flush", "src/chain.rs:DerivativeChain::flush"]}
{"id": "C158", "title": "Flushed derivative chains, dead processes and a power failure", "statement": "Once the flush of a derivative chain has returned, on a node in any state, then whatever is called, and however often the process dies at any moment and the node is opened again on the running machine: until the power fails, whenever the chain is open, in the middle of calls included, it is no shorter than it was when flushed and has the anchor it had and the flushed blocks. After a power failure at any moment, whatever it makes of the config files: the block database of the chain has every block below the flushed height, unchanged; if the config file of the chain can be read and the node has its last block, the chain opens at the height in that file and returns the flushed blocks up to there; and if that file is as last written, this height is at least the flushed one and the anchor is the old one. A power failure never makes a derivative chain appear longer than it was: however the machine came to its state, a chain that opens afterwards is no higher than the last config file said, if that could be read, and no higher than the chain was, if it was open.", "quantifier": "all states in which the chain is flushed, all calls, deaths and openings after it, all moments of the power failure, all states each database may be recovered to, all contents of the config files", "why_tests_cant": "tests neither kill processes inside calls nor cut the power; the combinations of what each database is recovered to are without bound", "anchors": ["src/chain.rs:DerivativeChain::flush", "src/chain.rs:DerivativeChain::new", "src/chain.rs:DerivativeChain::dump_config", "src/blockchaintree.rs:get_derivative_chain", "src/blockchaintree.rs:new"]}
{"id": "C159", "title": "Many threads, dead processes and a power failure", "statement": "Any number of threads use a node in any state, with calls that run to their end, fail or are dropped half way, in any interleaving; one of them flushes the tree, and its flush returns. Thereafter the threads work on until the process dies or they have all ended, and then the node is called, used by any number of threads, killed at any moment and opened again on the running machine, any number of times. After a power failure at any moment each database of the tree is found exactly as it was at one moment since that flush began, never as a mixture of moments; the node that opens on it answers with the balances of one such moment (the root account excepted at height 1), the gas of one such moment and the transactions of one such moment.", "quantifier": "all states, all calls of all threads, all interleavings, all points at which calls are cut short, all deaths and openings, all moments of the power failure, all states each database may be recovered to", "why_tests_cant": "tests see one schedule at a time, and neither kill processes inside calls nor cut the power", "anchors": ["src/blockchaintree.rs:flush", "src/blockchaintree.rs:new", "src/blockchaintree.rs:send_transaction", "src/blockchaintree.rs:rotate_dbs", "src/chain.rs:MainChain::flush", "src/chain.rs:add_block"]}
{"id": "C160", "title": "Whatever implements Transactionable", "statement": "send_transaction takes any implementor of Transactionable, which may answer every question as it likes, differently each time it is asked, or panic. Whatever it answers, at every moment of the call: nothing has changed unless the sender it named has the gas for the size it named and the coins for the fee and the amount it named; the only bytes stored are those it gave, under their hash; the only coins moved are the amount it named, between the two accounts it named; the only gas taken is the price of the size it named, from the account it named; these happen in this order, nothing else changes, and on success all have happened (except that an object without an amount moves and pays nothing). So no coins are made or lost, no gas is made, and nobody but the named payers loses anything. With an object answering as a transaction of the crate does, the call is the one the other properties are about.", "quantifier": "all states reachable with objects from anywhere, all answers of the object, all moments of the call", "why_tests_cant": "a test implements the trait once; an implementor can lie, change its answers from call to call, or panic at any of nine questions", "anchors": ["src/blockchaintree.rs:send_transaction", "src/chain.rs:add_transaction", "src/transaction.rs:Transactionable"]}
{"id": "C161", "title": "Every stored byte is paid for, whatever implements Transactionable", "statement": "When send_transaction succeeds, the sender's gas has gone down by the price of the bytes that were stored.", "quantifier": "all states reachable with objects from anywhere, all objects, with and without an amount", "why_tests_cant": "the transactions of the crate always have an amount; the trait allows none, and no test has an implementor of its own", "anchors": ["src/blockchaintree.rs:send_transaction", "src/transaction.rs:Transactionable"]}
{"id": "C162", "title": "Whatever objects the node is given", "statement": "The public calls accept blocks and transactions of any type implementing the crate's traits. Whatever these objects answer, after any calls: the main chain has no gaps, and what is at a height stays there (as long as the height has not reached its maximum); whatever is found under a block hash is the bytes of that hash, found at some height; every stored transaction is bytes under their hash, and a stored hash stays; balances stay readable. A block is accepted exactly when it gives its bytes and says that it is at the next height; these bytes are then found there, and otherwise nothing changes.", "quantifier": "all sequences of calls with all answers of all objects", "why_tests_cant": "tests use the crate's own block and transaction types only", "anchors": ["src/chain.rs:add_block", "src/chain.rs:add_transaction", "src/chain.rs:add_transactions", "src/blockchaintree.rs:add_new_block", "src/block.rs:Block"]}
{"id": "C163", "title": "Nothing has undefined behaviour", "statement": "The crate uses unsafe in its parsers, encoders, Merkle trees, signatures, validation and difficulty steps. Whatever bytes are parsed, whatever a tree is built from, whatever proof is checked, whatever is in the databases, whatever calls were made before: no call of the crate and no validation has undefined behaviour.", "quantifier": "all inputs, all contents of the databases, all calls on reachable nodes, debug and release builds", "why_tests_cant": "undefined behaviour shows, if at all, as something else; a test sees the inputs it was given, and debug builds check the one subtraction that matters", "anchors": ["src/tools.rs:recalculate_difficulty", "src/tools.rs:dump_u256", "src/block.rs:validate", "src/transaction.rs:parse", "src/merkletree.rs:build_tree", "src/blockchaintree.rs:emmit_new_main_block", "src/blockchaintree.rs:emmit_new_derivative_block"]}
{"id": "C164", "title": "No call panics", "statement": "A node answers every call with a result or an error. Whatever calls were made before, and wherever the process was killed and started again, no public call on an open node panics, no reading call panics, and opening a directory does not panic.", "quantifier": "all nodes reachable by any calls, kills and restarts, all calls and arguments, debug and release builds", "why_tests_cant": "a panic needs a particular state: a balance next to 2^256, a full chain, a last block lost in a crash, a clock that ran backwards in a debug build; no finite set of states shows that the list is complete", "anchors": ["src/blockchaintree.rs:sub_amount", "src/blockchaintree.rs:send_transaction", "src/blockchaintree.rs:get_derivative_chain", "src/blockchaintree.rs:emmit_new_main_block", "src/blockchaintree.rs:emmit_new_derivative_block", "src/chain.rs:add_block", "src/chain.rs:get_last_block", "src/tools.rs:recalculate_difficulty"]}
{"id": "C165", "title": "Each leading zero bit halves the digests that are enough", "statement": "Of the 2^256 digests check_pow accepts exactly 2^(256-k), k the number of leading zero bits of the difficulty, and which ones depends on nothing but the difficulty. Along a chain that started with the initial difficulty and never reached the all-zero one, a block faster than 600 s halves the number of digests that are enough for the next, a slower one doubles it up to half of all digests, and one at exactly 600 s leaves the difficulty alone.", "quantifier": "all difficulties, previous blocks, lists of transactions, nonces and digest functions; all sequences of timestamps in order", "why_tests_cant": "the accepted digests are too many to list", "anchors": ["src/tools.rs:check_pow", "src/tools.rs:count_leading_zeros", "src/tools.rs:recalculate_difficulty"]}
{"id": "C166", "title": "A damaged balance hurts only the calls that name its account", "statement": "Take two nodes with arbitrary, possibly malformed contents whose main chain and derivative chains are equal and whose balances differ only in the coins of some accounts and the gas of some accounts. Every series of public calls none of which reads one of these balances is answered, call by call, the same by both (errors and panics included), afterwards the nodes still differ only there, and all other accounts show the same balances. Left out are deposits, withdrawals and transfers naming such an account, transactions from or to one, and main blocks without transactions. A truncated coin entry makes reading it and depositing to it panic; setting the amount repairs it.", "quantifier": "all contents of the databases, all sets of damaged accounts, all series of calls that avoid them", "why_tests_cant": "the contents of the databases and the series of calls are unbounded", "anchors": ["src/blockchaintree.rs:add_amount", "src/blockchaintree.rs:send_amount", "src/blockchaintree.rs:send_transaction", "src/blockchaintree.rs:emmit_new_main_block"]}
{"id": "C167", "title": "A node never rereads its history", "statement": "Take two open nodes with arbitrary contents that have the same height, the same last block, the same balances and the same derivative chains; their older blocks, the index from hashes to heights, the stored transactions, the config file and the databases of the last epoch may differ in any way. Every series of public calls that change the node is answered, call by call, the same by both (errors and panics included), and afterwards they again agree in all of the former, provided no derivative block is emitted for an owner whose derivative chain is still empty. So a node whose past was deleted or replaced goes on unnoticed. The call left out does look back: without the index the first derivative block of an owner is refused.", "quantifier": "all contents of the databases, all pairs of nodes with the same present, all series of calls", "why_tests_cant": "compares pairs of arbitrary states along unbounded series of calls", "anchors": ["src/chain.rs:add_block", "src/chain.rs:get_last_raw_block", "src/blockchaintree.rs:emmit_new_main_block", "src/blockchaintree.rs:emmit_new_derivative_block"]}
{"id": "C168", "title": "A flushed restart does not reread the history either", "statement": "C167 with restarts among the calls, each after flush and by a clean shutdown: two nodes with the same height, last block, balances and derivative chains answer every series of calls and such restarts the same, all these restarts succeed, and afterwards the two agree in the former again. Without the flush this fails: the config file names an earlier height, the block below it becomes the last one, and a node that had lost its older blocks then has no last block.", "quantifier": "all contents of the databases, all pairs of nodes with the same present, all series of calls and restarts", "why_tests_cant": "compares pairs of arbitrary states along unbounded series of calls and restarts", "anchors": ["src/blockchaintree.rs:new", "src/blockchaintree.rs:flush", "src/chain.rs:new", "src/chain.rs:dump_config"]}
{"id": "C169", "title": "Derivative chains never reread their history either", "statement": "C167 with less to agree in: of the derivative chains, too, only the height, the recorded difficulty, the anchor and the last block need be the same in the two nodes, for chains not open yet as opening would find them. Every series of calls is still answered the same by both, first derivative blocks of an owner excepted, and afterwards the nodes agree in this again. So the older blocks and the index of an open derivative chain can be lost together with those of the main chain without any call noticing.", "quantifier": "all contents of all databases, all pairs of nodes with the same present, all series of calls", "why_tests_cant": "compares pairs of arbitrary states along unbounded series of calls", "anchors": ["src/chain.rs:DerivativeChain", "src/blockchaintree.rs:get_derivative_chain", "src/blockchaintree.rs:emmit_new_derivative_block"]}
{"id": "C170", "title": "The summary of an epoch does not look into the balances it commits to", "statement": "The call C166 leaves out. Whatever the coin and gas entries of some accounts are replaced with, a main block without transactions is accepted, refused or panics just as without the damage. An accepted block has the same header and commits to the bytes of the entries as they are stored, whether or not they can be read as balances. The entries are copied to the databases of the last epoch as they are; of the current balances only the root account's is written. So a balance no call can read is certified by the chain, and after a million blocks such a block is indeed accepted.", "quantifier": "all contents of all databases, all damaged entries, all arguments of the call", "why_tests_cant": "compares pairs of arbitrary states; the acceptance needs an execution of a million blocks", "anchors": ["src/blockchaintree.rs:summarize", "src/blockchaintree.rs:emmit_new_main_block", "src/blockchaintree.rs:rotate_dbs"]}
{"id": "C171", "title": "Damage to the history neither spreads nor heals", "statement": "Take two nodes with arbitrary contents that have the same present and differ otherwise only in some blocks, some index entries and some stored transactions (C167 says the calls do not notice). Every series of calls is answered the same by both, now including first derivative blocks unless their anchor is itself damaged, and afterwards every lookup by height, by hash and of a transaction that does not lead to a damaged place finds the same in both. And whatever a node holds below its height, readable or not, is found there unchanged after every series of calls: no call ever writes an old block again, so an emptied block stays missing for good.", "quantifier": "all contents of all databases, all sets of damaged entries, all series of calls, all lookups", "why_tests_cant": "compares pairs of arbitrary states along unbounded series of calls", "anchors": ["src/chain.rs:add_block", "src/chain.rs:find_by_height", "src/chain.rs:find_by_hash", "src/chain.rs:get_transaction", "src/blockchaintree.rs:emmit_new_derivative_block"]}
{"id": "C172", "title": "Every refusal has one listed cause, and a refused call has done nothing", "statement": "On every node that any calls, kills and restarts can lead to: each public call returns a given error exactly under the condition listed for that call and that error. The conditions name the height of the block, the balances, the work, the number of transactions of the block, the kind of the last entry of the main chain, the length of the config file of a derivative chain and the fate of the chain's anchor. Nothing else is refused. A refused call has done nothing at any time of its execution, except that a call on the derivative chain of an owner may have opened that chain. A call succeeds exactly if it is neither refused nor panics (C164) nor has undefined behaviour (C163). Every error on the list does come back from some node that can arise.", "quantifier": "all executions with crashes and restarts, all calls, all arguments, all errors", "why_tests_cant": "an exact condition over all reachable states, crashed and reopened ones included, and over every moment of a call", "anchors": ["src/blockchaintree.rs:send_transaction", "src/blockchaintree.rs:emmit_new_main_block", "src/blockchaintree.rs:emmit_new_derivative_block", "src/blockchaintree.rs:get_derivative_chain", "src/chain.rs:add_block", "src/errors.rs:ChainErrorKind"]}
{"id": "C173", "title": "Clients that share nothing do not notice each other", "statement": "Let several clients call one node in turn, on any state of the node, healthy or not, and let no call of one client change anything a call of another reads or changes. What a call reads and changes is listed call by call, balances and stored transactions entry by entry. Then every client is answered, call by call, as if it were the only client, whether the answers are successes, refusals or panics; what the others do not change ends up as without them; and any other order of arrival that keeps the order of each client's own calls gives every client the same answers and leaves the same contents in every database, config file and open chain. The condition is needed: of two clients withdrawing from an account that suffices for one, whichever comes first is served and the call of the other dies.", "quantifier": "all states, all numbers of clients, all logs of calls with disjoint footprints, all reorderings", "why_tests_cant": "a commutation property over all states and all interleavings of unboundedly many calls", "anchors": ["src/blockchaintree.rs:send_transaction", "src/blockchaintree.rs:send_amount", "src/blockchaintree.rs:emmit_new_main_block", "src/blockchaintree.rs:get_derivative_chain", "src/chain.rs:add_block"]}
{"id": "C174", "title": "Which calls may be repeated", "statement": "On any state of the node, healthy or not: a call that stores a block or transactions it is given, sets a balance, opens a derivative chain, or flushes, may be repeated. The second call changes no contents of any database, config file or open chain, whether the first succeeded, was refused or panicked, and is answered as the first was, except that a block that has been appended is refused the second time. This stays so when other clients are served in between whose calls share nothing with it (C173). None of the remaining nine calls may be repeated: deposits, withdrawals, transfers, transactions, and the emission of main and derivative blocks each do more the second time on some node that can arise.", "quantifier": "all states, all calls, all arguments, all calls of other clients in between", "why_tests_cant": "idempotence over all states, and a classification of all calls", "anchors": ["src/chain.rs:add_block", "src/chain.rs:add_transaction", "src/blockchaintree.rs:set_amount", "src/blockchaintree.rs:get_derivative_chain", "src/blockchaintree.rs:flush", "src/blockchaintree.rs:send_transaction"]}
{"id": "C175", "title": "A call cut short by a crash and repeated after the restart", "statement": "A node with at least two blocks has been flushed and is then given one call that stores what it is handed or appends a main block with transactions (add_block, add_new_block, add_transaction, add_transactions, set_amount, or emmit_new_main_block with transactions). The process dies at whatever moment of the call, and each database keeps whatever part of what was written to it; it is started again and given the same call, and so on, any number of times. Each time the node opens again, and when the call at last gets through it ends as the first would have ended and leaves the main chain and the ledgers as the first would have left them. Deposits, withdrawals, transfers and transactions are another matter: a crash right after the call can keep all it did, and then the repeated call counts a second time. With the first block alone the statement fails, because opening sets the root account's coins anew, and without the flush it fails, because the node comes back with an older height.", "quantifier": "all states, all listed calls, all arguments, any number of crashes, all moments of each, all parts surviving it", "why_tests_cant": "crash points, torn states and a restart over all states", "anchors": ["src/chain.rs:add_block", "src/chain.rs:add_transaction", "src/blockchaintree.rs:set_amount", "src/blockchaintree.rs:emmit_new_main_block", "src/blockchaintree.rs:add_amount", "src/blockchaintree.rs:new"]}
{"id": "C176", "title": "A call on a derivative chain cut short by a crash and repeated after the restart", "statement": "The tree and the derivative chain of an owner have just been flushed, there are at least two main blocks and the last one can be read. Then a block is appended to that derivative chain, handed to it or mined by emmit_new_derivative_block, and the process dies at whatever moment of the call, each database keeping whatever part of what was written to it; it is started again and given the same call, and so on, any number of times. Each time the node opens again, and when the call at last gets through it ends as the first would have ended and leaves the main chain, the ledgers and that derivative chain as they would have been, on disk and in memory. With the tree flushed but not the derivative chain this fails: a block that would have been accepted is refused after the restart.", "quantifier": "all states, all owners, all blocks, all proofs of work and timestamps, any number of crashes, all moments of each, all parts surviving it", "why_tests_cant": "crash points, torn states and a restart over all states", "anchors": ["src/chain.rs:add_block", "src/chain.rs:dump_config", "src/blockchaintree.rs:emmit_new_derivative_block", "src/blockchaintree.rs:get_derivative_chain", "src/blockchaintree.rs:flush"]}
{"id": "C177", "title": "What accepted calls come to does not depend on their order", "statement": "A node is given any list of deposits, withdrawals, transfers of coins or gas, transactions to send and transactions to store. If all are accepted, every account has what it had before and what the calls added to it, gas sent to oneself counting as gained. If all are accepted in another order too, and no two of the transactions collide under the digest, the node is left the same in every part, byte for byte. The order may decide which calls are accepted, and then it matters: a withdrawal before the deposit it needs is refused. For set_amount it matters even when all are accepted.", "quantifier": "all nodes, all lists of calls, all orders", "why_tests_cant": "a sum over histories of any length and all their permutations", "anchors": ["src/blockchaintree.rs:add_amount", "src/blockchaintree.rs:sub_amount", "src/blockchaintree.rs:send_amount", "src/blockchaintree.rs:add_gas", "src/blockchaintree.rs:sub_gas", "src/blockchaintree.rs:send_gas", "src/blockchaintree.rs:send_transaction", "src/chain.rs:add_transactions"]}
{"id": "C178", "title": "Under every schedule, accounts are what the calls add up to", "statement": "Threads share a node. Each sends a transaction, deposits, withdraws, moves coins or gas, asks for a balance or a block, stores a transaction, adds a block to the main chain or flushes. However their steps interleave, at every moment the gas of each account is what it was at the start and what the calls that have returned Ok add to it; its coins are what they were, what these calls add, and what some calls of send_transaction add that are under way or have panicked. So no update is lost or made twice, though transactions of one sender need not appear to happen one after the other. Once every call has returned Ok, coins and gas are what the calls add up to, whatever the schedule.", "quantifier": "all nodes, any number of threads, all calls, all schedules, all moments", "why_tests_cant": "a sum over all interleavings of any number of threads", "anchors": ["src/blockchaintree.rs:send_transaction", "src/blockchaintree.rs:add_amount", "src/blockchaintree.rs:sub_amount", "src/blockchaintree.rs:send_amount", "src/blockchaintree.rs:add_gas", "src/blockchaintree.rs:sub_gas", "src/blockchaintree.rs:send_gas", "src/blockchaintree.rs:flush", "src/chain.rs:add_block"]}
{"id": "C179", "title": "Calls that are covered together are accepted under every schedule", "statement": "Threads share a node; each sends a transaction, stores one, deposits, withdraws, moves coins or gas, or asks for a balance. Suppose each account has the coins and the gas that all the calls together take from it, each sender has the fee besides, and each account has room for what all the calls together give to it. Then however their steps interleave, no call that ends is refused or panics, and once all have ended, coins and gas are what the calls add up to. Having enough for each call alone does not suffice (C73, C131).", "quantifier": "all nodes, any number of threads, all calls, all schedules", "why_tests_cant": "all interleavings of any number of threads", "anchors": ["src/blockchaintree.rs:send_transaction", "src/blockchaintree.rs:add_amount", "src/blockchaintree.rs:sub_amount", "src/blockchaintree.rs:send_amount", "src/blockchaintree.rs:get_amount", "src/blockchaintree.rs:add_gas", "src/blockchaintree.rs:sub_gas", "src/blockchaintree.rs:send_gas", "src/blockchaintree.rs:get_gas", "src/chain.rs:add_transaction", "src/tools.rs:recalculate_fee"]}
{"id": "C180", "title": "Exactly which calls are accepted in every order", "statement": "Take any calls that send or store transactions, deposit, withdraw, or move coins or gas. If each account has the coins and the gas that all of them together take from it, has room for what all of them together give to it, and each sender has the fee besides, then they are accepted in every order, and leave the same node whichever the order (no two of the transactions having the same digest). Conversely, calls between different accounts that are accepted in every order are covered in this way. Calls from an account to itself are an exception: send_amount accepts any amount there.", "quantifier": "all nodes, all lists of calls, all orders", "why_tests_cant": "all orders of any number of calls", "anchors": ["src/blockchaintree.rs:send_transaction", "src/blockchaintree.rs:add_amount", "src/blockchaintree.rs:sub_amount", "src/blockchaintree.rs:send_amount", "src/blockchaintree.rs:add_gas", "src/blockchaintree.rs:sub_gas", "src/blockchaintree.rs:send_gas", "src/chain.rs:add_transaction", "src/tools.rs:recalculate_fee"]}
{"id": "C181", "title": "Calls that are safe in every order are safe under every schedule, and only those", "statement": "Threads share a node; each sends a transaction, deposits, withdraws, or moves coins or gas. If under no schedule a call that ends is refused or panics, then the calls are all accepted one after the other, in whatever order. For calls between different accounts the converse holds: if every order accepts them all, no interleaving of their steps makes one fail, although send_transaction checks first and pays later. Either is the case exactly if the calls are covered together.", "quantifier": "all nodes, any number of threads, all calls, all schedules, all orders", "why_tests_cant": "all interleavings and all orders of any number of calls", "anchors": ["src/blockchaintree.rs:send_transaction", "src/blockchaintree.rs:add_amount", "src/blockchaintree.rs:sub_amount", "src/blockchaintree.rs:send_amount", "src/blockchaintree.rs:add_gas", "src/blockchaintree.rs:sub_gas", "src/blockchaintree.rs:send_gas", "src/tools.rs:recalculate_fee"]}
{"id": "C182", "title": "Exactly what suffices for every order and every schedule, calls to oneself included", "statement": "Threads share a node; each sends a transaction, deposits, withdraws, or moves coins or gas, possibly from an account to itself. The following are equivalent. Under no schedule a call that ends is refused or panics. One after the other, in whatever order, all the calls are accepted. Each account has, after all other calls have taken from it, still the coins and the gas any one call needs of it (a transaction needs the fee besides, coins sent to oneself need nothing, gas sent to oneself has to be there), and has room for what all calls together add to it (gas sent to oneself is added).", "quantifier": "all nodes, any number of threads, all calls, all schedules, all orders", "why_tests_cant": "all interleavings and all orders of any number of calls", "anchors": ["src/blockchaintree.rs:send_transaction", "src/blockchaintree.rs:add_amount", "src/blockchaintree.rs:sub_amount", "src/blockchaintree.rs:send_amount", "src/blockchaintree.rs:add_gas", "src/blockchaintree.rs:sub_gas", "src/blockchaintree.rs:send_gas", "src/tools.rs:recalculate_fee"]}
{"id": "C183", "title": "What calls leave behind does not depend on how they were interleaved", "statement": "Threads share a node; each sends or stores a transaction, deposits, withdraws, moves coins or gas, or reads. If under each of two schedules all calls return Ok, and no two of the transactions have the same hash without having the same bytes, then both leave the node the same in every part: coins, gas, transactions, blocks, configuration and derivative chains, as a reader finds them. If none of the threads only reads or only stores a transaction, then what is left is also what the calls leave one after the other, in any order in which all are accepted. If there is enough for all of them in the sense of C182, then every schedule that ends all calls leaves what every order leaves.", "quantifier": "all nodes, any number of threads, all calls, all pairs of schedules, all orders", "why_tests_cant": "all pairs of interleavings of any number of calls", "anchors": ["src/blockchaintree.rs:send_transaction", "src/chain.rs:add_transaction", "src/blockchaintree.rs:add_amount", "src/blockchaintree.rs:sub_amount", "src/blockchaintree.rs:send_amount", "src/blockchaintree.rs:add_gas", "src/blockchaintree.rs:sub_gas", "src/blockchaintree.rs:send_gas"]}
{"id": "C184", "title": "The replies of concurrent calls tell what they have left behind", "statement": "Threads share a node; each sends or stores a transaction, deposits, withdraws, moves coins or gas, or reads. If under two schedules all calls end, and each ends in the same way under both, then both leave the node the same in every part (no two of the transactions having the same hash without having the same bytes).", "quantifier": "all nodes, any number of threads, all calls, all pairs of schedules", "why_tests_cant": "all pairs of interleavings of any number of calls", "anchors": ["src/blockchaintree.rs:send_transaction", "src/chain.rs:add_transaction", "src/blockchaintree.rs:add_amount", "src/blockchaintree.rs:sub_amount", "src/blockchaintree.rs:send_amount", "src/blockchaintree.rs:add_gas", "src/blockchaintree.rs:sub_gas", "src/blockchaintree.rs:send_gas"]}
{"id": "C185", "title": "Every schedule leaves what whole calls and cut-off transactions leave", "statement": "Threads share a node; each sends or stores a transaction, deposits, withdraws, moves coins or gas, or reads. However their steps are interleaved and however they end, the node is left the same in every part as if each had done one of the following, one after the other, in any order that goes through (and one does): a call that returned Ok everything; a send_transaction that panicked nothing, or only store the transaction, or only store it and move the coins; every other call, send_transaction refused with an error included, nothing. No two of the transactions have the same hash without having the same bytes.", "quantifier": "all nodes, any number of threads, all calls, all schedules under which all calls end", "why_tests_cant": "all interleavings of any number of calls, failing ones included", "anchors": ["src/blockchaintree.rs:send_transaction", "src/chain.rs:add_transaction", "src/blockchaintree.rs:add_amount", "src/blockchaintree.rs:sub_amount", "src/blockchaintree.rs:send_amount", "src/blockchaintree.rs:add_gas", "src/blockchaintree.rs:sub_gas", "src/blockchaintree.rs:send_gas"]}
{"id": "C186", "title": "With gas for all calls, the replies tell what concurrent calls left behind", "statement": "Threads share a node that has a last block with a fee; each sends or stores a transaction, deposits, withdraws, moves coins or gas, or reads. If every account has the gas that all calls together take from it, then, when all calls have ended, the node is what it would be if one after the other each call that returned Ok had done everything, each that returned an error nothing, and each send_transaction that panicked only stored its transaction (or nothing, if the price of its gas or the fee with its amount overflows). So two schedules under which every call ends alike (Ok, error or panic) leave the node the same in every part, provided no two of the transactions have the same hash without having the same bytes.", "quantifier": "all nodes with a last block, any number of threads, all calls, all pairs of schedules under which all calls end", "why_tests_cant": "all interleavings of any number of calls, failing ones included", "anchors": ["src/blockchaintree.rs:send_transaction", "src/chain.rs:add_transaction", "src/blockchaintree.rs:add_amount", "src/blockchaintree.rs:sub_amount", "src/blockchaintree.rs:send_amount", "src/blockchaintree.rs:add_gas", "src/blockchaintree.rs:sub_gas", "src/blockchaintree.rs:send_gas"]}
{"id": "C187", "title": "With gas for all calls, accounts are what the calls that returned Ok add up to", "statement": "Threads share a node; each sends or stores a transaction, deposits, withdraws, moves coins or gas, reads, adds a block to the main chain or flushes. If every account has the gas that all calls together take from it, then, whatever the schedule, when all calls have ended the coins and the gas of every account are what they were at the start and what the calls that returned Ok add: a call that was refused or panicked has moved nothing, though the coins need not suffice for all calls. Before that, only send_transaction calls still under way may have moved coins besides. Without that gas this fails: a send_transaction that panicked may have moved its coins.", "quantifier": "all nodes, any number of threads, all calls, all schedules, all moments", "why_tests_cant": "all interleavings of any number of calls, failing ones included", "anchors": ["src/blockchaintree.rs:send_transaction", "src/blockchaintree.rs:add_amount", "src/blockchaintree.rs:sub_amount", "src/blockchaintree.rs:send_amount", "src/blockchaintree.rs:add_gas", "src/blockchaintree.rs:sub_gas", "src/blockchaintree.rs:send_gas"]}
{"id": "C188", "title": "With coins for all calls, the replies tell what concurrent calls left behind", "statement": "Threads share a node that has a last block with a fee; each sends or stores a transaction, deposits, withdraws, moves coins or gas, or reads. If every account has the coins that all calls together take from it (fees aside), and room below 2^256 for those they give it, then, when all calls have ended, the node is what it would be if one after the other each call that returned Ok had done everything, each that returned an error nothing, and each send_transaction that panicked had stored its transaction and moved its coins without paying gas (or nothing, if the price of its gas or the fee with its amount overflows). So two schedules under which every call ends alike (Ok, error or panic) leave the node the same in every part, provided no two of the transactions have the same hash without having the same bytes. Coins alone are not enough: without room for them the replies do not tell.", "quantifier": "all nodes with a last block, any number of threads, all calls, all pairs of schedules under which all calls end", "why_tests_cant": "all interleavings of any number of calls, failing ones included", "anchors": ["src/blockchaintree.rs:send_transaction", "src/chain.rs:add_transaction", "src/blockchaintree.rs:add_amount", "src/blockchaintree.rs:sub_amount", "src/blockchaintree.rs:send_amount", "src/blockchaintree.rs:add_gas", "src/blockchaintree.rs:sub_gas", "src/blockchaintree.rs:send_gas"]}
{"id": "C189", "title": "With coins for all calls, coins are what the calls that returned Ok and the payments that panicked add up to", "statement": "Threads share a node that has a last block with a fee; each sends or stores a transaction, deposits, withdraws, moves coins or gas, or reads. If every account has the coins that all calls together take from it (fees aside), and room below 2^256 for those they give it, then, whatever the schedule, when all calls have ended the coins of every account are what they were at the start and what is added by the calls that returned Ok and by every send_transaction that panicked (unless the price of its gas or the fee with its amount overflows: then it has moved nothing). The gas of every account is what it was and what only the calls that returned Ok add: a payment that panicked was made without paying gas.", "quantifier": "all nodes with a last block, any number of threads, all calls, all schedules under which all calls end", "why_tests_cant": "all interleavings of any number of calls, failing ones included", "anchors": ["src/blockchaintree.rs:send_transaction", "src/blockchaintree.rs:add_amount", "src/blockchaintree.rs:sub_amount", "src/blockchaintree.rs:send_amount", "src/blockchaintree.rs:add_gas", "src/blockchaintree.rs:sub_gas", "src/blockchaintree.rs:send_gas"]}
