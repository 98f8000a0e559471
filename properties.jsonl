{"id": "C01", "title": "Balance operations move exactly the requested amount", "statement": "When an account balance operation (add, subtract, stake, unstake, freeze, unfreeze, vote, unvote, pledge, unpledge, DEX deal) reports success, the named bucket of the named token changes by exactly the requested amount in the documented direction, the counterpart bucket (same account or peer account) changes by exactly the opposite amount, and no other bucket, token or account field changes.", "quantifier": "every account pair, token, operation type and amount for which no 64-bit addition wraps", "why_tests_cant": "Twelve operation types times two account shapes times unbounded amounts and pre-states; a unit test only samples some amounts.", "anchors": ["src/entities/account.cpp: CAccount::OperateBalance", "src/commons/types.h: BalanceOpType", "src/entities/account.h: CAccountToken"]}
{"id": "C02", "title": "No balance bucket is ever overdrawn", "statement": "A balance operation that takes an amount out of a bucket succeeds only if that bucket holds at least that amount, so no bucket ever underflows.", "quantifier": "every account state, operation, amount, and every finite sequence of operations over any set of accounts", "why_tests_cant": "Underflow depends on the whole history of operations.", "anchors": ["src/entities/account.cpp: CAccount::OperateBalance", "src/entities/account.cpp: CAccount::CheckBalance"]}
{"id": "C03", "title": "A rejected balance operation changes nothing", "statement": "If a balance operation reports failure, the account and its peer are exactly as before.", "quantifier": "every account pair, token, operation and amount", "why_tests_cant": "Failure paths are many and each must be side-effect free for all states.", "anchors": ["src/entities/account.cpp: CAccount::OperateBalance"]}
{"id": "C04", "title": "Token supply is conserved by balance operations", "statement": "Over any history of balance operations the sum over all accounts and buckets of a token equals the initial sum plus everything credited without a peer minus everything debited without a peer; and while that total fits in 64 bits no single bucket addition wraps.", "quantifier": "all finite histories of operations over all accounts", "why_tests_cant": "A statement about sums over unbounded histories and account sets.", "anchors": ["src/entities/account.cpp: CAccount::OperateBalance"]}
{"id": "C05", "title": "A stack of database caches behaves as one map", "statement": "Reading a key through any stack of nested state caches on top of the database returns the value of the most recent write or erase of that key made through that stack, or else the database value; reading never changes what later reads return.", "quantifier": "all stack depths, all interleavings of reads, writes and erases, all keys and values", "why_tests_cant": "Read-through caching, tombstones and nesting interact; only a refinement proof covers all schedules.", "anchors": ["src/persistence/dbaccess.h: CCompositeKVCache", "src/persistence/dbaccess.h: db_util::IsEmpty"]}
{"id": "C06", "title": "Flushing a cache is invisible to readers", "statement": "Flushing a cache layer into its parent (or into the database) leaves the value seen for every key unchanged, both for a reader of the flushed layer and, afterwards, for a reader of the parent.", "quantifier": "all cache contents, all stack depths, all keys", "why_tests_cant": "Needs equality of views for all keys and all contents, including tombstones shadowing lower entries.", "anchors": ["src/persistence/dbaccess.h: CCompositeKVCache::Flush", "src/persistence/dbaccess.h: CSimpleKVCache::Flush"]}
{"id": "C07", "title": "Undo restores the exact previous state", "statement": "If the operation log recorded while executing any sequence of writes and erases is undone, every key has exactly the value it had before the sequence.", "quantifier": "all starting states, all finite operation sequences (repeated keys included), all table mixes", "why_tests_cant": "Repeated writes to one key make the order of undo matter; all sequences must be covered.", "anchors": ["src/persistence/dbaccess.h: CCompositeKVCache::UndoDataList", "src/persistence/dbaccess.h: AddOpLog", "src/persistence/leveldbwrapper.h: CDBOpLogMap"]}
{"id": "C08", "title": "Disconnecting a block restores the state before it", "statement": "Executing the block undo data produced while connecting a block returns every state table to its contents before the block, whatever the transactions did, and disconnecting several blocks in reverse order returns to the state before the first.", "quantifier": "all blocks, any number of transactions, any mix of tables, any number of blocks", "why_tests_cant": "Quantifies over arbitrary transaction effects and reorganisation depth.", "anchors": ["src/persistence/blockundo.cpp: CBlockUndoExecutor::Execute", "src/persistence/blockundo.cpp: CTxUndoOpLogger", "src/main.cpp: DisconnectBlock"]}
{"id": "C09", "title": "Iterating a cached table lists exactly its live entries in order", "statement": "Iterating a table through a stack of caches yields, in strictly increasing key order, exactly the keys whose point read succeeds, each once, with the value the point read returns.", "quantifier": "all cache and database contents, all stack depths", "why_tests_cant": "Merge iteration with shadowing and tombstones has unboundedly many alignments.", "anchors": ["src/persistence/dbiterator.h: CDBCacheIteratorImpl", "src/persistence/dbiterator.h: CDBPrefixIterator"]}
{"id": "C10", "title": "Database keys of different tables and entries never collide", "statement": "Two database keys built from table prefix and entry key are equal only if both the table and the entry are equal, a prefix scan of one table never meets a key of another table, and fixed-width numeric key parts sort as the numbers do.", "quantifier": "all pairs of tables, all entry keys", "why_tests_cant": "Collision freedom ranges over all pairs of keys.", "anchors": ["src/persistence/dbconf.h: GenDbKey/ParseDbKey/kDbPrefix table", "src/persistence/delegatedb.cpp", "src/commons/leb128.h: CFixedLeb128"]}
{"id": "C11", "title": "No transaction is confirmed twice on the active chain", "statement": "Along any history of connecting and disconnecting blocks, no transaction id occurs twice in the active chain (in one block or in different blocks).", "quantifier": "all block sequences, all reorganisations, all valid heights and cache heights", "why_tests_cant": "The recent-transaction cache forgets old blocks; safety relies on the valid-height window lining up exactly with the cache length for every history.", "anchors": ["src/main.cpp: ConnectBlock, DisconnectBlock, CheckBlock", "src/tx/tx.cpp: CBaseTx::IsValidHeight", "src/persistence/txdb.cpp: CTxMemCache"]}
{"id": "C12", "title": "The recent-transaction cache is a set across layers", "statement": "A transaction is reported as present through a stack of transaction caches exactly if the last add or remove of it through the stack was an add (or it is in the bottom layer), and flushing a layer down does not change the answer.", "quantifier": "all stacks, all interleavings of block additions and removals", "why_tests_cant": "Negative markers in upper layers must shadow lower layers under all interleavings.", "anchors": ["src/persistence/txdb.cpp: CTxMemCache"]}
{"id": "C13", "title": "Variable-length integers round-trip and fit their buffer", "statement": "Every unsigned integer written with the variable-length encoding is read back unchanged with nothing left over, two different integers never have encodings where one is a prefix of the other, the writer's fixed temporary buffer is never overrun, and the announced size equals the number of bytes written.", "quantifier": "all unsigned 8..64 bit integers (in fact all naturals for the round trip)", "why_tests_cant": "2^64 inputs.", "anchors": ["src/commons/serialize.h: WriteVarInt, ReadVarInt, GetSizeOfVarInt"]}
{"id": "C14", "title": "Compact sizes have one canonical encoding", "statement": "Reading a compact size accepts exactly the canonical encodings of sizes up to the maximum, returns the encoded size, and rejects every other byte string.", "quantifier": "all byte strings and all sizes", "why_tests_cant": "Quantifies over all byte strings.", "anchors": ["src/commons/serialize.h: WriteCompactSize, ReadCompactSize"]}
{"id": "C15", "title": "Fixed-width key integers round-trip and sort numerically", "statement": "The fixed-width big-endian base-128 encoding used in index keys decodes to the original number, always has the same length, and byte-wise order of encodings equals numeric order.", "quantifier": "all 16/32/64-bit integers", "why_tests_cant": "All pairs of 64-bit integers.", "anchors": ["src/commons/leb128.h: CFixedLeb128"]}
{"id": "C16", "title": "User identifiers round-trip through serialization", "statement": "Every user identifier (null, registration id, key id, public key) that can be written is read back as the same identifier, encodings of different identifiers are different, and unknown length tags are rejected.", "quantifier": "all identifiers and all byte strings", "why_tests_cant": "Infinite input space; ambiguity between kinds would only show on rare lengths.", "anchors": ["src/entities/id.h: CUserID::Serialize/Unserialize", "src/entities/id.h: CRegID"]}
{"id": "C17", "title": "Permission check grants exactly the granted bits", "statement": "An account passes a permission check exactly if every requested permission bit is set in its permission mask.", "quantifier": "all masks and all requests (64-bit)", "why_tests_cant": "2^128 combinations.", "anchors": ["src/entities/account.h: CAccount::CheckPerms"]}
{"id": "C18", "title": "A successful transfer moves the coins and nothing else", "statement": "A successful coin transfer debits the sender by fee plus all transferred amounts, credits each recipient by its amount less the friction fee, credits friction fees to the risk reserve, and keeps the total of every token unchanged apart from the fee.", "quantifier": "all ledgers, all recipient lists (repeated recipients and self transfers included), all amounts and friction ratios", "why_tests_cant": "Recipient lists with repetitions and aliasing of accounts are unbounded.", "anchors": ["src/tx/cointransfertx.cpp: CCoinTransferTx::ExecuteTx", "src/tx/tx.cpp: CBaseTx::ExecuteFullTx"]}
{"id": "C19", "title": "Contract fuel never exceeds what the fee pays for", "statement": "The fuel limit granted to a contract run, multiplied by the fuel rate, never exceeds the fee minus the reserved part, never exceeds the block fuel limit, and the fuel fee charged for any run within the limit is at most the fee paid.", "quantifier": "all fees, fuel rates and fuel consumptions", "why_tests_cant": "Integer-division rounding for all inputs.", "anchors": ["src/tx/contracttx.cpp: GetFuelLimit", "src/tx/tx.cpp: CBaseTx::GetFuelFee"]}
{"id": "C20", "title": "An unspent output is spent at most once", "statement": "Once a UTXO output has been consumed by an accepted transaction no later transaction (nor a second input of the same transaction) can consume it, and only outputs that were created can be consumed.", "quantifier": "all sequences of UTXO transactions, all input lists", "why_tests_cant": "Quantifies over histories and duplicated inputs.", "anchors": ["src/tx/coinutxotx.cpp: CCoinUtxoTransferTx::ExecuteTx", "src/persistence/txutxodb.cpp"]}
{"id": "C21", "title": "A UTXO transaction creates no value", "statement": "For every coin, the value of the outputs created plus fees is at most the value of the consumed outputs plus what is debited from accounts.", "quantifier": "all UTXO sets and all transactions", "why_tests_cant": "Sum overflow and coin-mixing corner cases need all inputs.", "anchors": ["src/tx/coinutxotx.cpp: CCoinUtxoTransferTx::CheckTx, ExecuteTx"]}
{"id": "C22", "title": "A UTXO is spendable only when all its conditions hold", "statement": "A transaction consuming an output is accepted only if, for every condition attached to that output (payee address, multi-signature, password hash, claim lock, reclaim lock), the matching proof is supplied and valid at the current height.", "quantifier": "all condition lists, proof lists and heights", "why_tests_cant": "Combinations of conditions and proofs are unbounded.", "anchors": ["src/tx/coinutxotx.cpp: CheckUtxoOutCondition"]}
{"id": "C23", "title": "An m-of-n output needs m different signers", "statement": "A multi-signature condition is satisfied only if at least m different listed members signed.", "quantifier": "all signer lists, signature lists and thresholds", "why_tests_cant": "Duplicate-signature cases for all lists.", "anchors": ["src/tx/coinutxotx.cpp: VerifyMultiSig"]}
{"id": "C24", "title": "Votes received equal votes cast", "statement": "After any sequence of accepted vote transactions, the votes recorded for each candidate equal the sum over voters of the votes they currently give that candidate, and each voter's locked voting balance equals the total of their votes.", "quantifier": "all histories of vote transactions by all voters", "why_tests_cant": "An accounting identity over unbounded histories.", "anchors": ["src/entities/account.cpp: CAccount::ProcessCandidateVotes, StakeVoteBcoins", "src/tx/delegatetx.cpp: CDelegateVoteTx::ExecuteTx"]}
{"id": "C25", "title": "Delegates are the top vote receivers", "statement": "The delegate list is exactly the candidates with most votes, sorted by votes descending with ties broken by registration id ascending, and nobody outside the list has more votes than someone in it.", "quantifier": "all vote tables and list lengths", "why_tests_cant": "Sorting by an encoded index key must be right for all vote counts.", "anchors": ["src/persistence/delegatedb.cpp: GetTopVoteDelegates, SetDelegateVotes, EraseDelegateVotes"]}
{"id": "C26", "title": "Block producer shuffling is a permutation", "statement": "Shuffling the delegates for any height, time and seed yields a reordering of the same delegates: none lost, none duplicated; the producer chosen for a slot is always an active delegate, and in consecutive slots of one round every delegate gets exactly one.", "quantifier": "all delegate lists, all hash outputs, all times", "why_tests_cant": "Holds for every possible hash output and delegate count.", "anchors": ["src/miner/miner.cpp: ShuffleDelegates, GetCurrentDelegate"]}
{"id": "C27", "title": "New delegates take over only after the full delay", "statement": "The active delegate list changes only to the list counted from votes at a multiple-of-100 height, and only when the required number of blocks has passed since the count.", "quantifier": "all block histories and vote changes", "why_tests_cant": "A temporal property over unbounded histories.", "anchors": ["src/chain/blockdelegates.cpp: ProcessBlockDelegates"]}
{"id": "C28", "title": "DEX orders lock what they may spend and give it back", "statement": "Placing an order freezes exactly the amount the order can spend; cancelling returns exactly the unspent part to the free balance and removes the order; an order can be cancelled only by its owner, once.", "quantifier": "all accounts, orders and histories", "why_tests_cant": "Relies on an invariant linking balances and the order book across all histories.", "anchors": ["src/tx/dextx.cpp: CDEXOrderBaseTx::ExecuteTx, CDEXCancelOrderTx::ExecuteTx", "src/persistence/dexdb.cpp"]}
{"id": "C29", "title": "DEX settlement conserves every token", "statement": "Settling any list of deals leaves the total of every token over all accounts (free plus frozen) unchanged: what buyers pay equals what sellers, matchers and the reserve receive.", "quantifier": "all order books, deal lists, prices, fee ratios", "why_tests_cant": "Conservation over arbitrary deal lists and rounding.", "anchors": ["src/tx/dextx.cpp: CDealItemExecuter::Execute", "src/tx/dextx.cpp: CDEXSettleTx::ExecuteTx"]}
{"id": "C30", "title": "A limit order is never executed at a worse price", "statement": "In every accepted deal the buyer of a limit order pays at most its limit price and the seller of a limit order receives at least its limit price for the traded asset, before fees.", "quantifier": "all deals and orders", "why_tests_cant": "Rounding and tolerance corner cases for all amounts.", "anchors": ["src/tx/dextx.cpp: CDealItemExecuter::Execute, CheckOrderAmount, CalcCoinAmount"]}
{"id": "C31", "title": "Frozen balances always cover the open orders", "statement": "At every point of every history, each account's frozen balance of a token is at least the sum of what its open orders can still spend of that token, so settlement and cancellation never fail for lack of frozen funds and no order is filled beyond its size.", "quantifier": "all histories of order placement, settlement and cancellation", "why_tests_cant": "An inductive invariant over unbounded histories.", "anchors": ["src/tx/dextx.cpp", "src/entities/dexorder.h", "src/persistence/dexdb.cpp"]}
{"id": "C32", "title": "Operator and asset fees are split without loss", "statement": "When a registration or issue fee is charged, the reserve share plus the shares paid to block producers equals exactly the fee charged, for any number of producers and any share ratio.", "quantifier": "all fees, ratios and delegate lists", "why_tests_cant": "Division remainders for all inputs.", "anchors": ["src/tx/dexoperatortx.cpp: ProcessDexOperatorFee", "src/tx/assettx.cpp: ProcessAssetFee", "src/entities/proposal.cpp: ProcessAxcInFee"]}
{"id": "C33", "title": "CDP totals and indexes agree with the CDPs", "statement": "After any sequence of CDP creations, updates and closures, the recorded global collateral and global debt of a pair equal the sums over open CDPs, every open CDP appears exactly once in the collateral-ratio index and the height index, and closed CDPs appear nowhere.", "quantifier": "all histories of CDP operations", "why_tests_cant": "Several redundant indexes must agree after every history.", "anchors": ["src/persistence/cdpdb.cpp: NewCDP, UpdateCDP, EraseCDP, SaveCdpIndexData, EraseCdpIndexData"]}
{"id": "C34", "title": "Pledged collateral equals the owner's open CDPs", "statement": "Each account's pledged balance of an asset equals the collateral recorded in its open CDPs of that asset.", "quantifier": "all histories of CDP stake, redeem, liquidate, force-liquidate operations", "why_tests_cant": "Inductive invariant across transaction types.", "anchors": ["src/tx/cdptx.cpp: CCDPStakeTx, CCDPRedeemTx, CCDPLiquidateTx", "src/tx/blockpricemediantx.cpp: CCdpForceLiquidator"]}
{"id": "C35", "title": "Stablecoins in circulation are backed by recorded debt", "statement": "Every stablecoin minted by a CDP operation is recorded as debt of that CDP, and debt is reduced only by stablecoins burned.", "quantifier": "all CDP operations and balances", "why_tests_cant": "Depends on interest/shortfall cases for all balances.", "anchors": ["src/tx/cdptx.cpp: CCDPStakeTx::ExecuteTx, SellInterestForFcoins, CCDPRedeemTx::ExecuteTx, CCDPInterestForceSettleTx"]}
{"id": "C36", "title": "CDP debt can grow only with enough collateral", "statement": "A CDP is opened or given more debt, and collateral is withdrawn, only if its collateral ratio afterwards is at least the configured starting ratio, and only the owner can do so.", "quantifier": "all CDPs, prices, parameters", "why_tests_cant": "Threshold logic over all inputs.", "anchors": ["src/tx/cdptx.cpp: CCDPStakeTx::ExecuteTx, CCDPRedeemTx::ExecuteTx"]}
{"id": "C37", "title": "Liquidation conserves coins and never overcharges", "statement": "In a liquidation the collateral taken from the owner equals what the liquidator receives plus what returns to the owner, the liquidator pays what it declared or less, and the debt removed plus penalty equals the stablecoins paid.", "quantifier": "all CDPs, ratios bands and amounts", "why_tests_cant": "Floating point rates: must hold for any rounding.", "anchors": ["src/tx/cdptx.cpp: CCDPLiquidateTx::ExecuteTx, ProcessPenaltyFees"]}
{"id": "C38", "title": "Interest is charged for every block exactly once", "statement": "The parameter intervals used to compute CDP interest partition the elapsed block range: each elapsed block is charged under exactly one parameter set, the one in force at that height.", "quantifier": "all parameter-change histories and block ranges", "why_tests_cant": "Arbitrary numbers of parameter changes and boundary alignments.", "anchors": ["src/persistence/sysparamdb.h: GetCdpInterestParamChanges", "src/tx/cdptx.cpp: ComputeCDPInterest"]}
{"id": "C39", "title": "The median price is a median", "statement": "The computed median of a non-empty price list is independent of the order of feeds, and at least half the feeds are at or above it and at least half at or below it, so a minority of feeders cannot move it outside the honest range.", "quantifier": "all price lists", "why_tests_cant": "All list lengths, orders and values.", "anchors": ["src/persistence/pricefeeddb.cpp: ComputeMedianNumber"]}
{"id": "C40", "title": "The price window contains exactly the recent feeds", "statement": "The median at a height uses exactly the prices fed in the configured number of last blocks, one price per feeder and block; disconnecting a block restores the window.", "quantifier": "all block histories, feeds and window sizes", "why_tests_cant": "Sliding window correctness over all histories.", "anchors": ["src/persistence/pricefeeddb.cpp: PushBlock, UndoBlock, AddPrice, ComputeBlockMedianPrice"]}
{"id": "C41", "title": "A proposal executes at most once and only with a two-thirds majority", "statement": "A proposal takes effect only after at least n - n/3 different governors approved it, before its expiry height, and never a second time.", "quantifier": "all sequences of approvals by any senders at any heights", "why_tests_cant": "Histories of approvals with duplicates, expiry and threshold boundary.", "anchors": ["src/tx/proposaltx.cpp: CProposalApprovalTx::CheckTx, ExecuteTx", "src/persistence/sysgoverndb.h"]}
{"id": "C42", "title": "A governed parameter reads back as set", "statement": "After a proposal sets a system, CDP or miner-fee parameter, reading that parameter returns the value set, and other parameters are unaffected.", "quantifier": "all parameters and values in the permitted range", "why_tests_cant": "All values; the zero value is special.", "anchors": ["src/persistence/sysparamdb.h: SetParam, GetParam, SetCdpParam, GetCdpParam, SetMinerFee, GetMinerFee"]}
{"id": "C43", "title": "CDP thresholds stay ordered", "statement": "Whatever CDP parameter proposals are executed, start-collateral ratio > start-liquidate ratio > force-liquidate ratio, and force ratio times discount stays at least one.", "quantifier": "all sequences of CDP parameter proposals", "why_tests_cant": "Histories of multi-parameter updates.", "anchors": ["src/entities/proposal.cpp: CGovCdpParamProposal::CheckProposal, ExecuteProposal"]}
{"id": "C44", "title": "A foreign-chain deposit is minted at most once and supply matches", "statement": "For each foreign transaction id the mirrored coins are minted at most once, amounts paid to user, producers and gateway sum to the deposited amount, and recorded supply equals minted minus burned and never exceeds the maximum.", "quantifier": "all sequences of swap-in and swap-out proposals", "why_tests_cant": "History property.", "anchors": ["src/entities/proposal.cpp: CGovAxcInProposal, CGovAxcOutProposal", "src/persistence/axcdb.h"]}
{"id": "C45", "title": "User-issued asset supply is capped and owner controlled", "statement": "An asset symbol can be issued once; its total supply never exceeds the maximum and is increased only by its owner while mintable; the total of all balances of the asset equals its recorded supply.", "quantifier": "all histories of issue and update transactions", "why_tests_cant": "History property with overflow corner cases.", "anchors": ["src/tx/assettx.cpp: CUserIssueAssetTx::ExecuteTx, CUserUpdateAssetTx::ExecuteTx", "src/persistence/assetdb.cpp"]}
{"id": "C46", "title": "A globally final block is never reverted by reorganisation", "statement": "Once a block of the active chain is marked globally final, choosing or activating any other best chain never removes it from the active chain, and the finality height never decreases.", "quantifier": "all sequences of new best chains, confirmations and connection failures", "why_tests_cant": "Arbitrary fork schedules.", "anchors": ["src/main.cpp: ActivateBestChain", "src/miner/pbftmanager.cpp: UpdateGlobalFinBlock"]}
{"id": "C47", "title": "Finality needs a two-thirds quorum of distinct producers", "statement": "A block is locally or globally finalised by messages only if at least n - n/3 different active producers sent a message for it; hence two different blocks at one height can both be finalised only if more than n/3 producers signed both.", "quantifier": "all message multisets and delegate sets", "why_tests_cant": "Quorum intersection for all n and all message schedules.", "anchors": ["src/miner/pbftmanager.cpp: CPBFTMan::UpdateLocalFinBlock, UpdateGlobalFinBlock, GetFinalBlockMinerCount", "src/p2p/protocol.cpp: operator<(CPBFTMessage)"]}
{"id": "C48", "title": "The Merkle root commits to the transaction list", "statement": "Two blocks that pass the duplicate-transaction check and have the same Merkle root and number of transactions have the same transactions in the same order (for a collision-free hash); with equal roots and different counts one of them must contain a duplicated transaction.", "quantifier": "all transaction lists", "why_tests_cant": "The odd-level duplication rule (CVE-2012-2459) is only excluded by an argument over all sizes.", "anchors": ["src/persistence/block.cpp: CBlock::BuildMerkleTree", "src/main.cpp: CheckBlock"]}
{"id": "C49", "title": "Merkle branches verify exactly the included transaction", "statement": "The branch produced for any transaction of a block verifies against the block's Merkle root at that index, and no other leaf verifies with the same branch and index.", "quantifier": "all block sizes and indexes", "why_tests_cant": "All tree shapes.", "anchors": ["src/persistence/block.cpp: GetMerkleBranch, CheckMerkleBranch"]}
{"id": "C50", "title": "Partial Merkle trees prove exactly the matched transactions", "statement": "Building a partial Merkle tree for any subset of a block and extracting it yields the same root and exactly the chosen transactions in order.", "quantifier": "all block sizes and match sets", "why_tests_cant": "All tree shapes and all subsets.", "anchors": ["src/chain/merkletree.cpp: CPartialMerkleTree"]}
{"id": "C51", "title": "Chain view queries are consistent with the block tree", "statement": "Setting the tip makes the active chain exactly the ancestors of the tip; ancestor lookup through skip links returns the ancestor at the requested height; the fork point of two chains is their last common block; block locators list existing blocks in decreasing height ending at genesis.", "quantifier": "all block trees and heights", "why_tests_cant": "Skip-list arithmetic and vector truncation for all heights.", "anchors": ["src/chain/chain.cpp: CChain::SetTip, GetLocator, FindFork", "src/main.cpp: GetSkipHeight, CBlockIndex::GetAncestor"]}
{"id": "C52", "title": "Block rewards are paid exactly once after maturity", "statement": "The reward of each block is credited exactly once, when the block has the maturity number of successors, never before; disconnecting blocks takes it back.", "quantifier": "all chain growth histories", "why_tests_cant": "Temporal property over all histories.", "anchors": ["src/main.cpp: ConnectBlock (mature reward)", "src/tx/blockrewardtx.cpp"]}
{"id": "C53", "title": "Block reward equals the fees collected less fuel", "statement": "A block is accepted only if the reward transaction claims, per fee coin, exactly the sum of fees minus fuel fees of its transactions, and the header's fuel fee equals the sum of fuel fees.", "quantifier": "all blocks", "why_tests_cant": "All transaction lists.", "anchors": ["src/main.cpp: ConnectBlock", "src/miner/miner.cpp: CreateNewBlockForStableCoinRelease"]}
{"id": "C54", "title": "Bounded containers stay bounded and keep what they promise", "statement": "The bounded message maps and sets used by the network and consensus code never exceed their limit, contain only inserted elements, and evict in the documented order.", "quantifier": "all insertion and erasure sequences", "why_tests_cant": "All operation sequences.", "anchors": ["src/commons/limitedmap.h", "src/commons/mruset.h", "src/miner/pbftlimitmap.h"]}
{"id": "C55", "title": "Contract account funds are conserved and released once", "statement": "A contract user's free plus time-locked funds change only by the amount of each operation; locked funds become free exactly when their timeout height is reached, exactly once.", "quantifier": "all sequences of contract account operations and heights", "why_tests_cant": "History property with overflow and merging cases.", "anchors": ["src/vm/luavm/appaccount.cpp: CAppUserAccount"]}
{"id": "C56", "title": "The signature cache never turns an invalid signature valid", "statement": "Signature verification through the cache returns true exactly when direct verification of the same hash, signature and key returns true, for every cache history.", "quantifier": "all sequences of verifications", "why_tests_cant": "Cache history dependence.", "anchors": ["src/main.cpp: VerifySignature", "src/sigcache.cpp: CSignatureCache"]}
{"id": "C57", "title": "Whatever identifier is received can be written again", "statement": "Every user identifier decoded from any byte string can be serialized again without aborting the process.", "quantifier": "all byte strings", "why_tests_cant": "Quantifies over all byte strings a peer may send; the failing inputs are malformed public keys.", "anchors": ["src/entities/id.h: CUserID::Unserialize, CUserID::Serialize", "src/entities/key.h: CPubKey::Set"]}
{"id": "C58", "title": "A user identifier has one accepted encoding", "statement": "Two different byte strings are never both accepted as encodings of the same user identifier.", "quantifier": "all pairs of byte strings", "why_tests_cant": "Quantifies over all pairs of byte strings.", "anchors": ["src/entities/id.h: CUserID::Unserialize", "src/commons/serialize.h: ReadVarInt"]}
{"id": "C59", "title": "A contract's work is metered", "statement": "Every burn request of a contract run is counted; a run is accepted only if none was refused and the fuel charged, which is at most the limit, is the cost of everything done; once the limit is passed the contract can do no further work.", "quantifier": "all limits and sequences of burn requests, including contracts that catch errors", "why_tests_cant": "All request sequences; the failing ones catch the out-of-fuel error.", "anchors": ["src/vm/luavm/lua/lburner.c", "src/vm/luavm/luavm.cpp: CLuaVM::Run"]}
{"id": "C60", "title": "The fuel rate follows the load", "statement": "The fuel rate never drops below its minimum, moves by at most a tenth per block, falls under low load, and rises under high load.", "quantifier": "all chains", "why_tests_cant": "Depends on double rounding and truncation for every rate value and on arbitrarily long histories.", "anchors": ["src/miner/miner.cpp: GetElementForBurn", "src/main.cpp: AcceptBlock"]}
{"id": "C61", "title": "Block rewards are paid only out of fees that were charged", "statement": "On every reachable chain the supply of each coin, plus the fees of blocks whose reward is not mature yet, plus all fuel fees, equals the genesis supply plus what transactions minted less what they burned plus the inflation part of matured rewards: fees neither vanish nor appear from nowhere.", "quantifier": "all sequences of block connections and disconnections, all block contents", "why_tests_cant": "Needs an invariant over whole chains; the failing blocks contain a special transaction type that no honest producer makes.", "anchors": ["src/main.cpp: ConnectBlock", "src/tx/tx.cpp: CBaseTx::ExecuteFullTx", "src/tx/cdptx.cpp: CCDPInterestForceSettleTx", "src/tx/blockrewardtx.cpp"]}
{"id": "C62", "title": "The block index survives a restart", "statement": "After a restart every accepted block is found in the block index under its own hash with its own parent, height, time and fuel fee.", "quantifier": "all sets of accepted blocks", "why_tests_cant": "The failing blocks have a header field value that no honest producer makes.", "anchors": ["src/persistence/block.h: CBlockIndex, CDiskBlockIndex", "src/persistence/blockdb.cpp: LoadBlockIndexes", "src/main.cpp: AddToBlockIndex"]}
{"id": "C63", "title": "Validating a UTXO transaction never crashes the node", "statement": "For every transaction a peer can send, checking it ends in acceptance or rejection, never in a null pointer dereference.", "quantifier": "all transactions that can be decoded, all chain states", "why_tests_cant": "The failing messages carry a condition type byte no wallet produces.", "anchors": ["src/entities/utxo.h: CUtxoCondStorageBean", "src/tx/coinutxotx.cpp: CheckUtxoOutCondition"]}
{"id": "C64", "title": "Validity of a UTXO transaction does not depend on local options", "statement": "Two nodes with the same chain state but different command line options give the same verdict on every transaction.", "quantifier": "all chain states, transactions and settings of the transaction index option", "why_tests_cant": "Tests run one configuration; the disagreement forks the chain.", "anchors": ["src/tx/coinutxotx.cpp: GetUtxoTxFromChain", "src/init.cpp: -txindex"]}
{"id": "C65", "title": "The cached tip block is the block at the tip", "statement": "After every start, connected block and disconnected block, the block cached beside the active chain (used to choose the block producer when transactions enter the memory pool) is the block at the tip of the active chain.", "quantifier": "all block trees and sequences of chain operations", "why_tests_cant": "The cache is only wrong after a restart or a reorganisation, and only transactions that read the current producer notice.", "anchors": ["src/chain/chain.cpp:107-116", "src/main.cpp:1309-1377", "src/main.cpp:2270-2280"]}
{"id": "C66", "title": "Accounts without a public key cannot sign", "statement": "No transaction, block or finality message is ever accepted as signed by an account that has no valid public key (such as a contract account), whatever signatures the node verified before.", "quantifier": "all histories of signature checks, all accounts, messages and signature strings", "why_tests_cant": "The accepted strings are forged from another key's signature of the same hash and only pass while that signature sits in the cache.", "anchors": ["src/sigcache.cpp: ComputeEntry", "src/main.cpp: VerifySignature", "src/tx/tx.cpp: CheckBaseTx", "src/miner/miner.cpp: VerifyRewardTx", "src/miner/pbftmanager.cpp: CheckPBFTMessage", "src/vm/luavm/lmylib.cpp: ExVerifySignatureFunc"]}
{"id": "C67", "title": "A contract cannot stop the node", "statement": "Whatever operations on its users' funds a Lua contract asks for (any kind, amount, timeout height and tag, in any order and over any history of runs), the node answers with success or failure of the transaction; it never aborts.", "quantifier": "all histories of contract transactions, all lists of requested operations, all stored accounts reachable from the empty store", "why_tests_cant": "One unusual combination of timeout, amount and tag among 2^100 is enough; a test would have to guess it, and the abort ends the test process itself.", "anchors": ["src/vm/luavm/appaccount.cpp", "src/vm/luavm/lmylib.cpp", "src/vm/luavm/luavmrunenv.cpp"]}
{"id": "C68", "title": "Transferring all of a contract user's funds moves everything", "statement": "When a contract asks to transfer all funds of one of its users to another, and the funds fit, the transaction succeeds, the sending user is left with nothing, the receiving user has both users' funds with every locked amount under the same tag and timeout height, and no other user changes.", "quantifier": "all stores of user accounts, all pairs of users, all heights, all splits into free and locked funds", "why_tests_cant": "Depends on the relation between the heights of the locked funds, the tip and the executing block; tests rarely lock funds that become due exactly in the executing block.", "anchors": ["src/vm/luavm/lmylib.cpp", "src/vm/luavm/appaccount.cpp"]}
{"id": "C69", "title": "A checked contract run keeps the users' funds backed", "statement": "When a contract has its users' funds checked, a successful run changes the sum of all its users' free and locked funds by exactly the amount sent with the transaction less the amount the contract account paid out.", "quantifier": "all stores, all lists of operations and calls, all amounts of their types", "why_tests_cant": "The check adds signed 64 bit numbers while the accounts use unsigned ones; differences need extreme amounts no test uses.", "anchors": ["src/vm/luavm/luavmrunenv.cpp", "src/vm/luavm/lmylib.cpp", "src/vm/luavm/appaccount.cpp"]}
{"id": "C70", "title": "A contract pays only from its own account", "statement": "A successful contract run creates and destroys no coins of any kind, changes free balances only, and lowers no balance other than the contract's own and, by at most the transfers made in the name of the sender of the transaction, that sender's.", "quantifier": "all ledgers whose supplies fit in 64 bits, all lists of operations and transfers, all amounts", "why_tests_cant": "Additions to balances wrap silently and come before the subtractions; conservation follows from the sums over the whole list, which no sampled list exercises.", "anchors": ["src/vm/luavm/luavmrunenv.cpp", "src/entities/account.cpp"]}
{"id": "C71", "title": "A DEX order cannot stop the node", "statement": "Checking and executing any order, cancellation or settlement transaction ends with success or rejection; no assertion fails and no undefined operation is executed, whatever prices and amounts the transaction carries.", "quantifier": "all transactions, prices, amounts and reachable order books", "why_tests_cant": "The failing numbers lie at the limits of 64 bits and the assertion on completed orders depends on the rounding of all earlier deals of the order.", "anchors": ["src/tx/dextx.cpp: CalcCoinAmount, CDEXOrderBaseTx::ExecuteTx, CDealItemExecuter::Execute", "src/tx/dextx.cpp: CheckOrderPrice"]}
{"id": "C72", "title": "The list of governors changes only as proposed", "statement": "An executed proposal that adds (or removes) a governor makes that account a governor (or not), and changes nobody else's role.", "quantifier": "all governor lists and all proposals", "why_tests_cant": "The special case is the empty stored list, which stands for a default governor; only long histories reach it again.", "anchors": ["src/persistence/sysgoverndb.h: GetGovernors, AddGovernor, EraseGovernor", "src/entities/proposal.cpp: CGovBpMcListProposal::ExecuteProposal"]}
{"id": "C73", "title": "An approved number of block producers takes effect at its height", "statement": "After proposals for the number of block producers were executed, the number in use at a height is the one of the last executed proposal whose effective height has been reached.", "quantifier": "all histories of proposals and all heights", "why_tests_cant": "Needs several overlapping schedules and heights on both sides of each.", "anchors": ["src/persistence/sysparamdb.h: GetTotalBpsSize, SetNewTotalBpsSize, SetCurrentTotalBpsSize", "src/entities/proposal.cpp: CGovBpSizeProposal::ExecuteProposal"]}
{"id": "C74", "title": "A new proposal can be approved", "statement": "A proposal that was just accepted is open for approval for as many blocks as the governed life of proposals says; no permitted parameter value makes proposals expire before they can be approved.", "quantifier": "all permitted parameter values, heights and proposals", "why_tests_cant": "The failing value is one of 2^32, at the end of the permitted range.", "anchors": ["src/tx/proposaltx.cpp: CProposalRequestTx::ExecuteTx, CProposalApprovalTx::CheckTx", "src/config/sysparams.h: PROPOSAL_EXPIRE_BLOCK_COUNT"]}
{"id": "C75", "title": "A governed CDP parameter cannot break the parameter store", "statement": "Setting a CDP parameter of any coin pair that a proposal may name succeeds, reads back, leaves other pairs alone, and never throws.", "quantifier": "all sequences of proposals over all coin pairs", "why_tests_cant": "Needs pairs whose order is inconsistent, inserted in a certain sequence into a balanced tree.", "anchors": ["src/config/scoin.h: CCdpCoinPair::operator<", "src/persistence/dbaccess.h: SetData, AddDataToMap", "src/entities/proposal.cpp: CGovCdpParamProposal"]}
{"id": "C76", "title": "Redundant parameter changes cost nothing", "statement": "The interest charged for a CDP depends only on the parameters in force at each height; executing a proposal that sets an interest parameter to the value it already has does not change what any CDP owes.", "quantifier": "all histories of parameter changes and all block ranges", "why_tests_cant": "Equality of two charges over arbitrary histories; the difference comes from rounding each period separately.", "anchors": ["src/persistence/sysparamdb.h: GetCdpInterestParamChanges", "src/tx/cdptx.cpp: ComputeCDPInterest"]}
{"id": "C77", "title": "Nodes with the same chain derive the same prices", "statement": "Two nodes that have the same active chain accept the same next blocks and derive the same median prices, no matter which forks each of them followed, when each was restarted, or when blocks were disconnected.", "quantifier": "all pairs of histories that end in the same chain, all next blocks", "why_tests_cant": "Compares two arbitrary histories; the price cache is memory only and is rebuilt differently on restart.", "anchors": ["src/persistence/pricefeeddb.cpp: ReleadBlocks, AddPriceByBlock, PushBlock, UndoBlock", "src/main.cpp: ConnectBlock, DisconnectBlock", "src/init.cpp: AppInit"]}
{"id": "C78", "title": "The recorded feed height is that of the last feed", "statement": "The height stored with a median price is the height of the latest block of the active chain that fed the pair; there is a stored price exactly when some block of the chain fed the pair.", "quantifier": "all histories of blocks, reorganisations and restarts, all pairs", "why_tests_cant": "Inductive over the chain; the height decides whether a price counts as active for loans, and is wrong only for unusual block layouts.", "anchors": ["src/persistence/pricefeeddb.cpp: GetMedianPrice, ComputeBlockMedianPrice", "src/entities/price.h: CMedianPriceDetail::IsActive"]}
{"id": "C79", "title": "A CDP transaction cannot stop the node", "statement": "Executing any stake, redemption, liquidation, interest settlement or forced liquidation ends with success or a rejection; no transaction and no state reached by transactions makes an assertion fail.", "quantifier": "all histories, transactions, prices and parameter values in range", "why_tests_cant": "The failing amounts are chosen to wrap a 64-bit sum; the rounded quotients in the assertions must be bounded for every input.", "anchors": ["src/entities/cdp.cpp: AddStake, Redeem, PartialLiquidate", "src/tx/cdptx.cpp: CCDPLiquidateTx::ExecuteTx", "src/persistence/cdpdb.cpp: GetCdpListByCollateralRatio"]}
{"id": "C80", "title": "The list of CDPs to settle is complete and accepted", "statement": "The settlement transaction a block producer assembles lists the open CDPs whose interest is due, none twice, never more than the transaction is allowed to contain.", "quantifier": "all states, heights and lists of coin pairs", "why_tests_cant": "Needs a hundred due CDPs in one pair and more in the next.", "anchors": ["src/tx/cdptx.cpp: GetSettledInterestCdps, CCDPInterestForceSettleTx::CheckTx", "src/miner/miner.cpp: CreateNewBlock", "src/persistence/cdpdb.cpp: CCdpHeightIndexCache"]}
{"id": "C81", "title": "Forced liquidation finds the CDPs below the threshold", "statement": "Forced liquidation looks at every open CDP of a pair whose collateral ratio at the current price is at or below the forced ratio, at no CDP above it, once each, in ascending order of the ratio.", "quantifier": "all CDPs, prices and parameters", "why_tests_cant": "The index key is a rounded double that overflows or vanishes for extreme amounts; completeness is about all amounts.", "anchors": ["src/persistence/cdpdb.cpp: GetCdpListByCollateralRatio, MakeCdpRatioIndexKey", "src/tx/blockpricemediantx.cpp: CCdpForceLiquidator::Execute"]}
{"id": "C82", "title": "A CDP above the liquidation ratio cannot be liquidated", "statement": "A liquidation is accepted only if the collateral ratio of the CDP at the current price is at or below the starting ratio of liquidation.", "quantifier": "all CDPs, prices, parameters, liquidators and amounts", "why_tests_cant": "The ratio is computed in doubles and converted to an integer; the conversion is undefined for enormous ratios.", "anchors": ["src/entities/cdp.h: CUserCDP::GetCollateralRatio", "src/tx/cdptx.cpp: CCDPLiquidateTx::ExecuteTx"]}
{"id": "C83", "title": "CDP transactions have the same outcome on all processors", "statement": "Nodes that convert out-of-range doubles to integers differently, as the C++ standard allows, accept the same CDP transactions and store the same data.", "quantifier": "all pairs of conversions that agree in range, all transactions", "why_tests_cant": "Quantifies over processors; tests run on one.", "anchors": ["src/tx/cdptx.cpp: CalcCollateralRatio, CCDPStakeTx::ExecuteTx", "src/entities/cdp.h: GetCollateralRatio", "src/persistence/cdpdb.cpp: MakeCdpRatioIndexKey"]}
{"id": "C84", "title": "A CDP pair below its global floor is locked", "statement": "If the collateral of all open positions of a coin pair together, at the current median price, does not reach the pair's global floor ratio of all their debt, then no transaction on a position of that pair is accepted (opening, adding, redeeming - even paying back debt -, liquidating, settling interest), and forced liquidation passes the pair over.", "quantifier": "All histories of CDP transactions, all prices and parameters, totals below 2^64, main network.", "why_tests_cant": "The decision compares a double computed from running totals; tests cover a few totals and prices, not every history that leads to the totals.", "anchors": ["src/entities/cdp.h:198-211", "src/tx/cdptx.cpp:192-361", "src/tx/cdptx.cpp:400-545", "src/tx/cdptx.cpp:568-812", "src/tx/cdptx.cpp:898-965", "src/tx/blockpricemediantx.cpp:273-428"]}
{"id": "C85", "title": "Authority in contract calls comes from signatures or from the contracts themselves", "statement": "While a universal transaction runs, every permission carried by an executed action belongs to the payer, to an account whose signature was verified, or to a contract whose program ran earlier in the same transaction; an action issued by a contract carries only that contract's code permission or, if it is an action to itself, also its own number and permissions it was called with.", "quantifier": "all contract programs, states, transactions and positions in the trace", "why_tests_cant": "Contract programs are arbitrary; tests try a few, an attacker writes any.", "anchors": ["src/vm/wasm/wasm_context.cpp:38-80", "src/vm/wasm/wasm_context.cpp:116-197", "src/tx/universaltx.cpp:52-186"]}
{"id": "C86", "title": "A signer's authority is used only at the contract it was given to", "statement": "An action that carries a signer's authority is one of the actions the signer signed.", "quantifier": "all contract programs, states and transactions", "why_tests_cant": "Depends on which contracts notify which others, and on what the notified programs do.", "anchors": ["src/vm/wasm/wasm_context.cpp:38-80", "src/vm/wasm/wasm_context.cpp:206-218"]}
{"id": "C87", "title": "Contracts cannot take coins of users", "statement": "A universal transaction lowers no balance of a user account (no contract at any of its numbers) unless one of the signed actions addressed to the bank contract carries that user's authority; in particular not if the user did not sign.", "quantifier": "all contract programs, transactions, users, coins and balance kinds", "why_tests_cant": "The attacker chooses the programs, the number of nested calls and notifications.", "anchors": ["src/vm/wasm/modules/wasm_native_bank_module.hpp:127-383", "src/vm/wasm/modules/wasm_native_commons.hpp:79-153", "src/vm/wasm/wasm_context.cpp:38-80"]}
{"id": "C88", "title": "Contracts neither create nor destroy coins", "statement": "A universal transaction changes the total of a native coin only by minting the block rewards that are due, each exactly once; the total of every issued asset equals its recorded supply afterwards.", "quantifier": "all contract programs and transactions, totals below 2^64", "why_tests_cant": "An invariant over arbitrary programs and nesting.", "anchors": ["src/vm/wasm/modules/wasm_native_bank_module.hpp:127-383", "src/vm/wasm/modules/wasm_native_voting_module.hpp:135-191", "src/vm/wasm/modules/wasm_native_module.hpp:79-153"]}
{"id": "C89", "title": "A contract is changed by its maintainer only", "statement": "If a universal transaction changes the code, ABI or maintainer of a contract, the contract's maintainer signed the transaction (or is a contract that asked for it); contracts do not disappear; a contract marked as not upgradable keeps its code, and one without a maintainer stays as it is.", "quantifier": "all contract programs, transactions, contracts", "why_tests_cant": "Any path through nested calls could reach the system contract.", "anchors": ["src/vm/wasm/modules/wasm_native_module.hpp:79-190", "src/entities/contract.h:84-137", "src/tx/universaltx.cpp:52-186"]}
{"id": "C90", "title": "The data of a contract is written by its own code only, and there is one copy of it", "statement": "If an entry in a contract's storage changes, that contract's program ran; a contract sees the same storage under every number by which it can be called.", "quantifier": "all contract programs, transactions, contracts, keys and numbers", "why_tests_cant": "Numbers are 64-bit, identifiers 48-bit: the collision shows only for numbers nobody uses in tests.", "anchors": ["src/vm/wasm/wasm_interface.cpp:275-355", "src/vm/wasm/wasm_context.hpp:83-113", "src/entities/id.cpp:73-76", "src/entities/id.h:45-103"]}
{"id": "C91", "title": "The work of a universal transaction is bounded and paid for", "statement": "An accepted universal transaction executes at most 60056 receivers, nested at most four deep, and pays at least 100 times the fuel rate for each; endless recursion fails.", "quantifier": "all contract programs, transactions and states", "why_tests_cant": "Bounds hold for every program, including programs that call each other and notify each other.", "anchors": ["src/tx/universaltx.cpp:188-372", "src/vm/wasm/wasm_context.cpp:82-146", "src/vm/wasm/wasm_constants.hpp"]}
{"id": "C92", "title": "Votes and minted rewards are in the hands of the voting contract, and the ranking agrees with the votes", "statement": "Votes change, and block rewards are minted, only by a call that the program of the configured voting contract issues; afterwards every account with votes is ranked exactly once, with its votes.", "quantifier": "all contract programs, transactions, candidates and numbers of votes", "why_tests_cant": "Any program may try; agreement of two tables is an invariant over all calls.", "anchors": ["src/vm/wasm/modules/wasm_native_voting_module.hpp:72-202", "src/persistence/delegatedb.cpp"]}
{"id": "C93", "title": "The outcome of a universal transaction does not depend on the speed of the node", "statement": "All nodes that execute the same universal transaction in the same state reach the same verdict.", "quantifier": "all transactions, states and execution times", "why_tests_cant": "Tests run on one machine.", "anchors": ["src/tx/universaltx.cpp:245-330", "src/vm/wasm/wasm_constants.hpp"]}
{"id": "C94", "title": "Numbers identify accounts", "statement": "After a universal transaction, the number recorded in an account still leads to that account; no two accounts share a number.", "quantifier": "all contract programs, transactions and states", "why_tests_cant": "Registration and deployment assign numbers independently; they collide only when both happen in one transaction.", "anchors": ["src/tx/tx.cpp:182-215", "src/tx/tx.cpp:314-352", "src/vm/wasm/modules/wasm_native_module.hpp:79-153", "src/persistence/accountdb.cpp:91-93"]}
{"id": "C95", "title": "A transaction of any type survives the network unchanged", "statement": "Writing a transaction of any of the 36 types and reading the bytes gives back the same type and the same value of every member, whatever bytes follow; the announced size is the number of bytes written; nothing a class declares is left out.", "quantifier": "all transaction types and all values of all members (nested conditions, proposals, operator updates, contracts and price maps included)", "why_tests_cant": "Each type has its own list of members, with nested alternatives; tests round-trip a few objects of a few types.", "anchors": ["src/commons/serialize.h:205-900", "src/tx/txserializer.h:33-335", "src/tx/tx.h:118-260", "src/entities/utxo.h:244-433", "src/entities/proposal.h:108-919", "src/entities/contract.h:33-128"]}
{"id": "C96", "title": "What is signed determines the transaction", "statement": "Two transactions with the same bytes under the signature (and thus the same id) have the same type and agree in every member other than signatures.", "quantifier": "all pairs of transactions of all types", "why_tests_cant": "It is a statement about all pairs of transactions; one forgotten member in one class breaks it.", "anchors": ["src/tx/tx.h:100-235", "src/tx/cdptx.h:198-211", "src/tx/universaltx.h:48-68", "src/tx/dextx.h:340-438"]}
{"id": "C97", "title": "A block hash identifies a block", "statement": "Two well-formed blocks with the same hash are the same block; blocks and headers survive the network unchanged.", "quantifier": "all pairs of blocks with any transactions, for hash functions without collisions", "why_tests_cant": "Pairs of different blocks with equal hash have to be excluded, not sampled.", "anchors": ["src/persistence/block.h:58-157", "src/persistence/block.cpp:17-100", "src/main.cpp:1819-1880"]}
{"id": "C98", "title": "A received transaction can be checked and passed on", "statement": "A transaction that was read from the network is relayed as the same transaction, and checking it does not crash the node.", "quantifier": "all byte strings received", "why_tests_cant": "Malformed input is unbounded; the harmful strings are special.", "anchors": ["src/commons/serialize.h:308-410", "src/tx/proposaltx.cpp:51-66", "src/entities/proposal.h:720-919"]}
{"id": "C99", "title": "What is stored is read back", "statement": "A record of any table of the state database, the undo data of a block and the block file records are read back from their stored bytes as they were written; the announced size is the number of bytes.", "quantifier": "all tables and all values", "why_tests_cant": "Every table has its own record type, with maps, sets, optional parts and alternatives; a single wrong width corrupts state only for large values.", "anchors": ["src/persistence/accountdb.h:101-103", "src/entities/account.h:79-167", "src/entities/dexorder.h:88-206", "src/entities/cdp.h:40-181", "src/persistence/blockundo.h:18-55", "src/persistence/disk.h:13-105", "src/commons/serialize.h:690-930"]}
{"id": "C100", "title": "The active chain is a sound chain from genesis", "statement": "Whatever blocks arrive in whatever order, every block of the active chain names its predecessor, keeps the rules for height, time and fuel rate and passed full verification on exactly the chain below it; blocks that are final at the time are not removed.", "quantifier": "all histories of delivered blocks, all rules that judge blocks, all moments of flushing and finality", "why_tests_cant": "Blocks of side branches and orphans are indexed before they are executed and verified with cached states; wrong mixtures need long adversarial orders of arrival.", "anchors": ["src/main.cpp:2106-2208", "src/main.cpp:1882-1985", "src/main.cpp:1700-1817", "src/main.cpp:1344-1588"]}
{"id": "C101", "title": "The node follows the best sound chain", "statement": "After a block changed what is known, no known sound chain is longer than the active one, or as long and earlier to arrive, unless a final block holds the active chain.", "quantifier": "all histories of delivered blocks with any mixture of sound and unsound branches", "why_tests_cant": "Choice, failed connection, marking of descendants and retry interact over unboundedly many branches.", "anchors": ["src/main.cpp:1430-1479", "src/main.cpp:1481-1588", "src/persistence/block.h:308-326"]}
{"id": "C102", "title": "No delivered block stops the node", "statement": "Processing a delivered block never fails an assertion, dereferences null, loops for ever or shuts the node down.", "quantifier": "all histories of delivered blocks", "why_tests_cant": "A single special block is enough; termination of choosing a chain and of resolving orphans is about all states.", "anchors": ["src/main.cpp:1882-1985", "src/main.cpp:1590-1647", "src/persistence/cachewrapper.cpp:323-335", "src/main.cpp:43-45"]}
{"id": "C103", "title": "A good block is taken", "statement": "A block that is sound on a known sound chain within the fork limit is known after delivery, and the active chain is then at least as long as the chain it ends.", "quantifier": "all histories before the delivery", "why_tests_cant": "An earlier delivery can spoil a later one; the spoiling block must be constructed.", "anchors": ["src/main.cpp:1819-1880", "src/main.cpp:1882-1900", "src/main.cpp:2106-2125", "src/persistence/block.cpp:21-25"]}
{"id": "C104", "title": "The pool of orphan blocks is bounded, consistent and favours near blocks", "statement": "At most 751 orphans are kept, the three collections agree, no orphan waits for a known block, and a full pool makes room for an orphan nearer than all stored ones.", "quantifier": "all histories of delivered blocks", "why_tests_cant": "Consistency of three collections with different keys under all orders of arrival; the failing heights lie beyond 2^31.", "anchors": ["src/main.cpp:86-97", "src/main.cpp:373-399", "src/main.cpp:2130-2201", "src/config/const.h:161"]}
{"id": "C105", "title": "A transaction works on one copy of every account", "statement": "Executing a transaction, which loads accounts on demand, changes them in memory and saves them at the end, has exactly the effect of writing each change to the database at once, whichever ids (number, key id, public key) are used for an account; no change is lost and the database's references between numbers, keys and accounts stay right.", "quantifier": "all sequences of account operations, ids, databases in order", "why_tests_cant": "Aliasing shows only when one account is reached under several names in one transaction.", "anchors": ["src/tx/tx.cpp:182-222", "src/tx/tx.cpp:280-352", "src/tx/contracttx.cpp:78-91", "src/tx/contracttx.cpp:264-277", "src/tx/coinminttx.cpp:15-48", "src/tx/cointransfertx.cpp:29-52", "src/persistence/accountdb.cpp:91-130", "src/entities/account.cpp:559-569"]}
{"id": "C106", "title": "An account does only what its permissions allow", "statement": "A transaction that passes the check has a sender with the permission for its kind; an account whose permissions were cleared can do nothing more than register its key or clear its permissions again.", "quantifier": "all transactions, accounts and permission sets, versions from 2", "why_tests_cant": "A table of thirty kinds times 2^64 permission sets, and authority can come in indirectly.", "anchors": ["src/tx/tx.h:45-79", "src/tx/tx.cpp:90-180", "src/entities/account.h:31-43", "src/tx/universaltx.cpp:101-143", "src/tx/accountpermscleartx.cpp:18-25"]}
{"id": "C107", "title": "Checking a transaction throws nothing", "statement": "Whenever a transaction passes the common check, the rest of the code finds the kind of sender id it asks for; no transaction in a block can raise an exception this way (which would shut the node down).", "quantifier": "all transactions", "why_tests_cant": "Needs the one kind of transaction whose permitted senders and expected sender disagree.", "anchors": ["src/tx/tx.cpp:138-149", "src/tx/assettx.cpp:139", "src/tx/assettx.cpp:332", "src/tx/pricefeedtx.cpp:66", "src/tx/dextx.cpp:1077", "src/tx/proposaltx.cpp:129-160", "src/entities/id.h:160-180"]}
{"id": "C108", "title": "The sender's key signed the transaction", "statement": "From the second protocol version on, every transaction of an account that passes the check carries a signature by the key that the account's address is derived from; so does every other account whose authority a universal transaction has.", "quantifier": "all transactions, databases in order", "why_tests_cant": "Sender ids of four kinds lead to the key by different routes.", "anchors": ["src/tx/tx.cpp:104-129", "src/tx/universaltx.cpp:77-143"]}
{"id": "C109", "title": "A producer's own block is accepted", "statement": "The block that a producer makes from its pool passes the checks of every node with the same tip: size, number of median and reward transactions, distinct ids, heights, fuel, fuel fees of the header and rewards.", "quantifier": "all histories of the pool (offers, blocks, reorganisations), all transactions, all orders of packing, running out of time at any point", "why_tests_cant": "Producer and validator are separate code; they differ in the height, in strictness of limits and in what counts as size, and only transactions at the edges show it.", "anchors": ["src/miner/miner.cpp:431-573", "src/miner/miner.cpp:575-600", "src/main.cpp:1050-1130", "src/main.cpp:1819-1870", "src/tx/tx.cpp:78-84", "src/tx/txmempool.cpp:91-131"]}
{"id": "C110", "title": "The pool can follow the tip", "statement": "At all times the pool holds distinct, relayable, unconfirmed transactions that are valid at the next height and can all be executed one after another on the state of the tip. What fits is taken in, what does not is refused, and a transaction leaves only if it is confirmed or can no longer be executed.", "quantifier": "all sequences of offered transactions, connected blocks and reorganisations", "why_tests_cant": "Depends on the whole history of the pool and on the order of transaction ids.", "anchors": ["src/main.cpp:236-305", "src/tx/txmempool.cpp:46-153", "src/main.cpp:1376-1386", "src/main.cpp:1427-1429"]}
{"id": "C111", "title": "Better paying transactions come first", "statement": "Producers go through price feeds, the price median and then the other transactions by falling fee per kilobyte, forgetting none; the forced settlement of interest, which has the highest ordinary priority, is not displaced by ordinary transactions.", "quantifier": "all pools, all shapes of the search tree", "why_tests_cant": "The comparison is not an order, so that the result depends on the order of insertion and on the inner workings of the set.", "anchors": ["src/miner/miner.h:42-62", "src/miner/miner.cpp:91-113", "src/miner/miner.cpp:455-475", "src/tx/tx.h:177-179", "src/config/const.h:141-153"]}
{"id": "C112", "title": "A peer that asks is told the pool", "statement": "The answer to a mempool message lists the transactions of the pool.", "quantifier": "all pools", "why_tests_cant": "No answer looks the same as an empty pool.", "anchors": ["src/p2p/chainmessage.cpp:728-750", "src/tx/txmempool.cpp:81-89", "src/tx/txmempool.cpp:174-180"]}
{"id": "C113", "title": "Names and numbers stand for each other", "statement": "A text is accepted as a name exactly when it has at most thirteen letters of the alphabet _ 1-5 a-z, the thirteenth among the first sixteen. Every 64-bit number has a text that reads back as the number, two texts stand for the same number exactly when they agree up to trailing underscores, and the compile-time macro gives the same numbers as the run-time reader and accepts the same texts.", "quantifier": "all texts and all 64-bit numbers", "why_tests_cant": "Letters sit at different bit positions in every place, the thirteenth in four bits; a slip shows for a few of 2^64 names.", "anchors": ["src/vm/wasm/types/name.hpp:12-40", "src/vm/wasm/types/name.hpp:92-173", "src/vm/wasm/types/name.hpp:225-261"]}
{"id": "C114", "title": "Variable length integers have one encoding and are read safely", "statement": "A 32-bit number written to a stream is read back with the rest of the stream untouched. Every number has exactly one accepted encoding, and no bytes lead the reader into undefined behaviour.", "quantifier": "all 32-bit numbers, signed and unsigned, and all byte sequences", "why_tests_cant": "Writers only produce the short form; the long forms and overlong inputs come from other people's programs.", "anchors": ["src/vm/wasm/datastream.hpp:1069-1144"]}
{"id": "C115", "title": "Packing loses nothing, and reading needs no more memory than the data", "statement": "For every type that can be packed: each value is read back from its bytes with the rest of the stream untouched, different values have different bytes, no value's bytes begin another's, and bytes cut short are refused. Reading never asks for more elements than there are bytes.", "quantifier": "all types built from numbers, flags, texts, vectors, optionals and tuples, all their values and all byte sequences", "why_tests_cant": "The types nest without bound, and the memory asked for by hostile bytes is not visible in the result.", "anchors": ["src/vm/wasm/datastream.hpp:62-67", "src/vm/wasm/datastream.hpp:445-504", "src/vm/wasm/datastream.hpp:651-675", "src/vm/wasm/datastream.hpp:793-876", "src/vm/wasm/datastream.hpp:979-1058"]}
{"id": "C116", "title": "Amounts of contract assets are exact", "statement": "Sums, differences, products and quotients of valid amounts are exact or refused. An amount or symbol written as text is read back as the same amount or symbol, and other texts are refused.", "quantifier": "all amounts and symbols, all texts", "why_tests_cant": "Wrapping needs amounts near the maximum; rounding, signs and trailing characters need texts nobody types in tests.", "anchors": ["src/vm/wasm/types/asset.hpp:49-222", "src/vm/wasm/types/asset.hpp:356-464", "src/vm/wasm/types/symbol.hpp:27-67", "src/vm/wasm/types/symbol.hpp:114-213", "src/vm/wasm/types/symbol.hpp:338-407"]}
{"id": "C117", "title": "An accepted contract interface can be read to the end", "statement": "An interface is accepted only if its type definitions, bases and struct members form no circle, all types it mentions are known, and no well-formed interface is refused; so reading data of any of its types ends within a depth that does not depend on the data.", "quantifier": "all interface descriptions and all data", "why_tests_cant": "A circle is found by an argument about the whole graph; a test sees single interfaces.", "anchors": ["src/vm/wasm/abi_serializer.cpp:118-161", "src/vm/wasm/abi_serializer.cpp:203-253", "src/vm/wasm/abi_serializer.cpp:511-639", "src/vm/wasm/abi_serializer.hpp:235-302"]}
{"id": "C118", "title": "Action data and JSON correspond", "statement": "For every interface and every type in it: JSON that is packed is read back in its canonical form (declared fields in order, the base's fields first), with the rest of the data untouched, and everything that can be read can be packed.", "quantifier": "all interfaces, types, JSON values and built-in conversions that undo each other", "why_tests_cant": "Types nest without bound, and the two directions are separate functions.", "anchors": ["src/vm/wasm/abi_serializer.cpp:284-463"]}
{"id": "C119", "title": "Account numbers as text are unique", "statement": "The text of an account number reads back as the number, and no other text stands for it.", "quantifier": "all account numbers and texts", "why_tests_cant": "Only ill-formed texts collide, and they look like typing errors.", "anchors": ["src/vm/wasm/types/regid.hpp:69-108"]}
{"id": "C120", "title": "Every exchange operator is found by its owner, and every account owns at most one", "statement": "After any registrations, changes, transfers and governance switches, the search by owner finds exactly the operators with that owner (operator 0, which may exist by default only, included), and no account owns two.", "quantifier": "all histories of operator transactions from an empty register", "why_tests_cant": "The index is a second table changed by three functions, with a special case for an operator that is not stored.", "anchors": ["src/persistence/dexdb.cpp:125-201", "src/tx/dexoperatortx.cpp:148-212", "src/tx/dexoperatortx.cpp:380-430"]}
{"id": "C121", "title": "Only its owner changes an exchange operator, and only governance switches it", "statement": "No operator ever disappears. Its record changes only by a transaction of its owner, in the one field named and to the value given, or by a governance switch, which changes nothing else and never concerns operator 0. An account loses an operator only by giving it away.", "quantifier": "all histories of operator transactions and all operators", "why_tests_cant": "Needs every transaction type on every state; the exception needs 2^32 registrations.", "anchors": ["src/tx/dexoperatortx.cpp:305-360", "src/tx/dexoperatortx.cpp:396-430", "src/persistence/dexdb.cpp:95-108", "src/persistence/dexdb.cpp:188-201", "src/entities/proposal.cpp:434-479"]}
{"id": "C122", "title": "A new exchange operator gets a fresh number and takes no orders until governance enables it", "statement": "A registration takes the next number, which no operator had, and stores the terms as asked, inactive. Whenever an operator other than 0 accepts orders, governance has enabled it and not disabled it since.", "quantifier": "all histories of operator transactions", "why_tests_cant": "That nothing else sets the flag is a statement about all other transactions.", "anchors": ["src/tx/dexoperatortx.cpp:185-212", "src/persistence/dexdb.cpp:95-108", "src/tx/dextx.cpp:364-375", "src/entities/proposal.cpp:458-479"]}
{"id": "C123", "title": "The terms of exchange operators stay within their bounds", "statement": "Fee ratios are at most one half, names at most 32 and memos at most 100 bytes, lists of partner operators have at most 500 different entries, each of them another existing operator, and the open mode is public or private.", "quantifier": "all histories of operator transactions and all operators", "why_tests_cant": "Two transactions check separately; numbers beyond 2^32 behave like small ones in some places.", "anchors": ["src/tx/dexoperatortx.cpp:107-165", "src/tx/dexoperatortx.cpp:214-303"]}
{"id": "C124", "title": "An account without exchange operator can register one, and gets one only by its own will", "statement": "An account that owns no operator can register with terms within the bounds if it pays the fee. An account becomes owner of an operator only if it takes part.", "quantifier": "all histories of operator transactions and all accounts", "why_tests_cant": "Concerns what others can do before the account acts.", "anchors": ["src/tx/dexoperatortx.cpp:148-212", "src/tx/dexoperatortx.cpp:380-395"]}
{"id": "C125", "title": "Messages are recovered from the byte stream however it is cut", "statement": "For every sequence of pieces read from the socket, the receive queue afterwards is determined by the bytes alone: it holds exactly the frames of the stream (24 header bytes and as many data bytes as the header announces), in order, and the beginning of the next frame; the stream is refused exactly if a header announces more than MAX_SIZE bytes; the receive loop always ends. What a sender wrote with BeginMessage/EndMessage comes out as the same commands and data in the same order.", "quantifier": "all byte streams, all ways to cut them into pieces, all message lists", "why_tests_cant": "There are infinitely many streams and for each a number of cuts exponential in its length; errors occur only for cuts inside the header, at its end, or for empty data.", "anchors": ["src/p2p/netmessage.cpp:8-46", "src/p2p/node.cpp:210-232", "src/p2p/node.h:402-457", "src/p2p/protocol.cpp:54-107"]}
{"id": "C126", "title": "Exactly the messages of this network are handled, once and in order", "statement": "For every interleaving of reading and message handling, the messages handed to ProcessMessage are exactly those carried by a leading part of the frames received: right start bytes, a command of printable characters padded with zeros, right checksum; each once and in order; other frames of the network are passed over. No frame at or after one with wrong start bytes is handled. Unless a handler closes the connection it is closed only because of wrong start bytes or an oversized header. If the peer sends well-formed messages only, the connection stays open and, once no complete message waits, all of them were handled. A waiting complete message is taken whenever there is room to send and no request is owed.", "quantifier": "all byte streams, all interleavings of reads and message loop passes, all messages", "why_tests_cant": "The interleavings of two threads' steps and the contents of the frames are unbounded.", "anchors": ["src/p2p/processmessage.hpp:152-261", "src/p2p/protocol.cpp:54-107", "src/net.cpp:678-706", "src/net.cpp:1203-1217"]}
{"id": "C127", "title": "Queued messages are written to the socket byte for byte", "statement": "For every sequence of messages queued and every pattern of partial writes: no assertion of SocketSendData fails; the bytes written are a beginning of the concatenated frames in the order queued; nSendSize is the size of the frames not yet finished, and when it is zero everything was written. If the socket takes at least one byte, writing advances; if it takes none, nothing changes.", "quantifier": "all message sequences, all answers of the socket", "why_tests_cant": "Partial writes can split any message anywhere, several messages can finish in one call, and the assertions abort the node.", "anchors": ["src/p2p/node.cpp:61-101", "src/p2p/node.h:402-457"]}
{"id": "C128", "title": "Receive memory is bounded and connections do not stand still", "statement": "Whatever a peer sends, the memory counted for its receive queue never exceeds max(flood limit, MAX_SIZE + 24) + 65536 + MAX_SIZE + 24 bytes, which is below 68 million by default, so the 32-bit sum does not wrap. On every open connection there is something to do: bytes to write, or the loop waits for data, or a complete message waits, there is room to send, and a pass of the message loop takes it.", "quantifier": "all byte streams, all reachable connection states", "why_tests_cant": "The bound and the absence of a standstill depend on the interplay of three queues over unbounded histories.", "anchors": ["src/net.cpp:575-602", "src/p2p/node.h:295-300", "src/p2p/netmessage.cpp:8-46"]}
{"id": "C129", "title": "A peer makes the node hold only memory it has sent bytes for", "statement": "The memory held for a peer's messages is never more than the bytes received from it.", "quantifier": "all byte streams, all reachable connection states", "why_tests_cant": "The excess appears only for particular headers and is invisible unless memory is measured before the data arrive.", "anchors": ["src/p2p/netmessage.cpp:8-46", "src/p2p/processmessage.hpp:152-261"]}
{"id": "C130", "title": "Addresses and keys survive base 58 text, and one text means one key", "statement": "For all byte strings: EncodeBase58 never fails its assertion, uses only the 58 letters and digits, and DecodeBase58 of the result gives the same bytes. For all texts: DecodeBase58 never fails its assertion, accepts exactly texts that are the encoding of some bytes between spaces, and returns these bytes. With checksum and version byte: an address written for a key is read as this key, different keys have different addresses, and a text read as a key is the address of this key up to surrounding spaces.", "quantifier": "all byte strings, all texts, all checksum functions of four bytes", "why_tests_cant": "The buffers are sized by the approximations log 256/log 58 = 138/100 and 733/1000; whether the carry can run over is a statement about all lengths.", "anchors": ["src/commons/base58.cpp:20-190"]}
{"id": "C131", "title": "Data and hashes survive hexadecimal text, and one text means one value", "statement": "For all byte strings HexStr read by ParseHex or RPC_PARAM::ParseHex gives the same bytes; a hash written by GetHex is read by ParseHashV as the same hash; what is accepted is the text of the value returned, up to case, surrounding spaces and 0x.", "quantifier": "all byte strings, all texts", "why_tests_cant": "Wrong texts are infinitely many, and a lenient parser is found only by the particular text it misreads.", "anchors": ["src/commons/util/util.cpp:188-233", "src/commons/util/util.h:222-235", "src/commons/uint256.cpp:18-54", "src/rpc/core/rpcserver.cpp:123-135", "src/rpc/core/rpccommons.cpp:727-760"]}
{"id": "C132", "title": "The amount typed is the amount used", "statement": "If an amount argument is accepted, it is of one of the forms amount, amount:unit, token:amount, token:amount:unit, and the token and number of smallest units used are exactly those it says (the caller's default token if it names none); more decimals than the unit has places are refused; well-formed texts are accepted; whole JSON numbers are taken as they are.", "quantifier": "all texts, all default tokens, all whole JSON numbers", "why_tests_cant": "The defects need amounts beyond 2^52 or 2^63, or a particular combination of form and default token.", "anchors": ["src/rpc/core/rpccommons.cpp:26-184", "src/rpc/core/rpccommons.cpp:413-431", "src/rpc/core/rpcserver.cpp:104-111", "src/config/const.h:97-124"]}
{"id": "C133", "title": "Base 64 text means one byte string", "statement": "For all byte strings DecodeBase64 of EncodeBase64 gives the same bytes and finds the text valid; different data have different texts; a text found valid is the text of the data returned.", "quantifier": "all byte strings, all texts", "why_tests_cant": "The state machines carry bits over from byte to byte; leniency shows only for particular endings.", "anchors": ["src/commons/util/util.cpp:235-362"]}
{"id": "C134", "title": "Blocks and undo data stay where they were written", "statement": "For every order of storing blocks, writing undo data, flushing the cache, stopping or crashing between operations, crashes between the writing of a block and of its index record, and failures for lack of disk space: every block of the index is read back from its position byte by byte, and so are the undo data with their checksum; a stored block is in the index, undo data written are found, positions never change; block files stay below 128 MiB if blocks do.", "quantifier": "all sequences of operations, all block and undo sizes", "why_tests_cant": "Overwriting needs a particular mixture of restarts, stale file numbers in the database, truncation when leaving a file and late undo data for old files.", "anchors": ["src/main.cpp:689-747", "src/main.cpp:1648-1698", "src/main.cpp:1937-1951", "src/main.cpp:1206-1242", "src/persistence/block.cpp:136-186", "src/persistence/blockundo.cpp:43-100", "src/commons/util/util.cpp:751-820"]}
{"id": "C135", "title": "Rebuilding the index finds every block and endangers none", "statement": "Starting with -reindex on block files of a node gives an index with exactly the blocks in the files, each at its position, and blocks stored later do not damage them.", "quantifier": "all contents of block files of a node, all later operations", "why_tests_cant": "Needs a crash in the short time between two writes, a later reindex and then new blocks; the damage shows only when the overwritten block is read.", "anchors": ["src/main.cpp:1648-1698", "src/main.cpp:2489-2560", "src/init.cpp:344-366"]}
{"id": "C136", "title": "No key of the wallet is lost", "statement": "From a new wallet by any sequence of getnewaddr, importprivkey, importwallet, encryptwallet, walletpassphrase, walletlock, walletpassphrasechange, dropprivkey, dropminermainkeys, restarts, and crashes inside AddKey: the wallet file can always be read again; a main key that was added can be used (with the passphrase of the time) from then on, until the user removes it.", "quantifier": "all sequences of commands, restarts and crashes; all keys and passphrases", "why_tests_cant": "Loss needs a particular order of import, encryption, crash and restart, and is noticed only when the key is needed.", "anchors": ["src/wallet/wallet.cpp:35-106", "src/wallet/wallet.cpp:271-372", "src/wallet/wallet.cpp:529-618", "src/wallet/crypter.cpp:107-310", "src/wallet/walletdb.cpp:31-200", "src/entities/keystore.cpp:69-160", "src/rpc/rpcdump.cpp:84-273", "src/rpc/rpcwallet.cpp:40-90"]}
{"id": "C137", "title": "Keys of an encrypted wallet are nowhere in the clear", "statement": "A locked wallet gives no main key; encryption, locking and a restart leave the wallet locked; no main key stands unencrypted in the file of an encrypted wallet, nor in memory while it is locked; dropminermainkeys leaves no main key.", "quantifier": "all sequences of commands, restarts and crashes; all keys and passphrases", "why_tests_cant": "Tests look at what commands answer, not at what is left in the file or in memory after a refused or interrupted command.", "anchors": ["src/wallet/wallet.cpp:271-358", "src/wallet/wallet.cpp:529-618", "src/wallet/crypter.cpp:127-310", "src/wallet/walletdb.cpp:31-200", "src/rpc/rpcdump.cpp:84-273", "src/rpc/rpcwallet.cpp:499-690"]}
{"id": "C138", "title": "The current passphrase and no other opens the wallet", "statement": "walletpassphrase succeeds exactly with the passphrase last set by encryptwallet or walletpassphrasechange, and then every key of the wallet can be used; walletpassphrasechange succeeds exactly with the current passphrase, keeps all keys, and if refused changes nothing; an encrypted wallet stays encrypted.", "quantifier": "all sequences of commands, restarts and crashes; all passphrases", "why_tests_cant": "All passphrases and all histories cannot be tried; a wrong entry accepted or a right one refused after some history would be seen only by chance.", "anchors": ["src/wallet/wallet.cpp:35-106", "src/wallet/wallet.cpp:271-358", "src/wallet/crypter.cpp:14-44", "src/wallet/crypter.cpp:127-176", "src/rpc/rpcwallet.cpp:499-690"]}
{"id": "C139", "title": "The result of a streaming hash depends on the bytes alone", "statement": "For each of the streaming hash classes, the result after any sequence of writes is the standard digest of the bytes in a row: the run of the compression function over the blocks of the data followed by the standard padding (a one bit, fewest zeros, bit length). How the data is cut into writes, what the buffer's memory held before, and earlier uses ended by a reset do not matter. The double hash of an object written in pieces, or of two or three ranges, is the digest of the digest of the bytes in a row.", "quantifier": "All byte strings shorter than 2^61 bytes, all cuts into pieces, all contents of the uninitialised buffer, all compression functions, all reuses after reset.", "why_tests_cant": "Tests feed a few vectors in a few cuts; an error in the branch that fills the buffer shows only for particular residues of earlier and new lengths, and dependence on uninitialised memory shows only by luck.", "anchors": ["src/crypto/sha256.cpp:639-693", "src/crypto/sha1.cpp:149-199", "src/crypto/sha512.cpp:155-207", "src/crypto/ripemd160.cpp:242-292", "src/crypto/hash.h:20-121"]}
{"id": "C140", "title": "The keyed hash is the one of the standard", "statement": "The keyed hash (HMAC with SHA-256 or SHA-512), as used for deriving child keys, equals H((K xor opad) || H((K xor ipad) || text)), where K is the key filled up with zeros to a block, or its digest filled up when the key is longer than a block, however the text is cut into writes.", "quantifier": "All keys of any length below 2^61 bytes, all texts and cuts, all compression functions with outputs no longer than a block.", "why_tests_cant": "Keys of test vectors seldom sit at the boundary between short and long, and text in pieces is not tried; a digest agreeing on vectors can still differ for keys of exactly one block.", "anchors": ["src/crypto/hmac_sha256.cpp:9-34", "src/crypto/hmac_sha512.cpp:9-34", "src/crypto/hash.cpp:65-96"]}
{"id": "C141", "title": "Checked arithmetic gives the exact result or refuses", "statement": "Addition, subtraction, multiplication and division of the checked integers return the mathematical result exactly when it fits into 64 bits (division: rounded towards zero), and otherwise refuse; nothing wraps around and nothing that fits is refused. The same holds for unsigned addition and subtraction.", "quantifier": "All pairs of 64-bit numbers.", "why_tests_cant": "Every operation has 2^128 pairs of operands; the multiplication works with 32-bit halves and signs, whose errors show for a few operands only.", "anchors": ["src/commons/SafeInt3.hpp:1977-2038", "src/commons/SafeInt3.hpp:2408-2460", "src/commons/SafeInt3.hpp:1116-1124"]}
{"id": "C142", "title": "Numbers of contracts survive the way through bytes", "statement": "A contract that turns a number into bytes and the bytes back into a number gets the number it had; bytes turned into a number and back are the same bytes.", "quantifier": "All 64-bit numbers, all strings of four and eight bytes.", "why_tests_cant": "Tests use small positive numbers; the loss concerns negative and large ones.", "anchors": ["src/vm/luavm/lmylib.cpp:1030-1090"]}
{"id": "C143", "title": "The data of a contract is a map of its own", "statement": "Whatever contracts write, modify, delete and read, in any order and interleaving, each gets what a map of its own would give: the value last written under the key, nothing if there is none or it was deleted; another contract reads the same value and cannot change it.", "quantifier": "All sequences of calls of all contracts within the limits of lengths, all initial data; that others' data is untouched: all calls with any arguments.", "why_tests_cant": "Tests use a few keys of a few letters and one contract.", "anchors": ["src/vm/luavm/lmylib.cpp:1341-1520", "src/vm/luavm/lmylib.cpp:1640-1690", "src/vm/wasm/wasm_interface.cpp:275-357", "src/persistence/contractdb.cpp:56-78"]}
{"id": "C144", "title": "No contract can stop the node by the key it uses", "statement": "A call for contract data, with whatever key, ends with a result or a failed transaction; it never ends the program.", "quantifier": "All calls with all arguments of all contracts, all data.", "why_tests_cant": "The limit is reached only with keys of more than 500 bytes, which no test uses.", "anchors": ["src/vm/wasm/wasm_interface.cpp:275-357", "src/persistence/dbconf.h:229-285", "src/vm/luavm/lmylib.cpp:183-246"]}
{"id": "C145", "title": "What a contract is told about the chain depends on the ancestors of its block alone", "statement": "A contract that asks for the hash of an earlier block or the height at which a transaction was confirmed gets the answer for the chain of ancestors of the block that contains the call, on every node.", "quantifier": "All chains, branches, heights and transactions, all node settings.", "why_tests_cant": "Tests execute blocks on one node on one chain; branches executed while another one is active are rare, and a different answer splits the network.", "anchors": ["src/vm/luavm/lmylib.cpp:1181-1250", "src/main.cpp:307-324", "src/main.cpp:875-881", "src/main.cpp:1790-1800"]}
{"id": "C146", "title": "Block download keeps its books straight", "statement": "Whatever peers connect, announce, send and disconnect, in whatever order: the node never uses an invalid iterator or the state of a peer that has gone; each block is to be fetched from at most one peer, once; at most 128 blocks are in flight from a peer; a peer that has gone has none; an announced block is assigned to a peer that is there, and to the announcing one when nobody fetches it or its time is over; blocks are asked for in the order of the queue and stay with the peer until they come, the peer goes or their time is over; a block that has come is assigned to nobody.", "quantifier": "All sequences of connects, disconnects, announcements, sendings and blocks, any number of peers and blocks, any times.", "why_tests_cant": "The counters, lists and maps must agree after every interleaving of the events of many peers; a wrong one shows as a crash or a block nobody fetches long after.", "anchors": ["src/p2p/chainmessage.cpp:33-71", "src/p2p/chainmessage.cpp:191-238", "src/p2p/node.cpp:31-59", "src/p2p/sendmessage.hpp:213-227"]}
{"id": "C147", "title": "getblocks and getheaders lead a peer to the tip", "statement": "The answer to getblocks is the inventory of the blocks after the fork point up to the stop block, at most 500, whatever was announced before on the connection; when 500 were announced the node remembers the last one and announces the tip when that one is fetched; a peer that asks again reaches the tip in rounds of 500. The answer to getheaders is the headers after the fork point up to and with the stop block, at most 2000.", "quantifier": "All chains, fork points and stop blocks, any number of rounds, any state of the inventory of the peer.", "why_tests_cant": "Tests use chains shorter than 500 blocks and new connections.", "anchors": ["src/p2p/chainmessage.cpp:510-600", "src/p2p/chainmessage.cpp:120-135", "src/p2p/node.h:340-353"]}
{"id": "C148", "title": "Every request for data is answered once and in order", "statement": "The requests of getdata are answered in their order, each once, however the sending pauses when the buffer is full; what is not here is reported as not found.", "quantifier": "All lists of requests, all contents of the node, all sequences of pauses.", "why_tests_cant": "Pauses occur only with a full send buffer, at any position of the list.", "anchors": ["src/p2p/chainmessage.cpp:73-177"]}
{"id": "C149", "title": "Inventory is announced completely and once", "statement": "What is announced to a peer was to be announced, in that order; everything to be announced is announced, was known to the peer, or waits; only transactions wait, and none when it is the peer's turn. Something that is not announced by force is announced at most once to a peer and never to one that announced it, as long as the set of known things has room.", "quantifier": "All sequences of pushes, announcements by the peer and sendings, all random choices, all sizes of the set.", "why_tests_cant": "The random delay of transactions makes runs differ; doubling appears only in long runs.", "anchors": ["src/p2p/node.h:340-353", "src/p2p/sendmessage.hpp:151-200"]}
{"id": "C150", "title": "A transaction is asked for soon and not too often", "statement": "Requests for one transaction are at least two minutes apart; a transaction not asked for in the last minutes is asked for at once, and no peer can delay the request to another one by more than some minutes.", "quantifier": "All sequences of announcements by all peers at all times.", "why_tests_cant": "It takes many announcements of the same transaction by one peer and the clock of days.", "anchors": ["src/p2p/node.h:371-401", "src/p2p/chainmessage.cpp:640-670"]}
{"id": "C151", "title": "Misbehaving peers are banned, and for the time set", "statement": "A peer is disconnected and its address banned exactly when its penalties reach the limit and it is not local; the ban lasts for the set time from then, or as long as an earlier ban; no other address is concerned and no ban is ever shortened.", "quantifier": "All sequences of penalties, limits, times and tables of bans.", "why_tests_cant": "Bans last a day; the exact moment of the end and the combination of bans are not tested.", "anchors": ["src/main.cpp:479-498", "src/p2p/sendmessage.hpp:133-145", "src/p2p/node.cpp:183-206"]}
{"id": "C152", "title": "Filters of light clients miss nothing", "statement": "What a peer has put into its filter is matched from then on until it loads or clears a filter; no filter message makes the node divide by zero or write outside the filter; filters beyond the limits are refused and punished; transactions that match are announced to the peer.", "quantifier": "All sequences of filter messages with all contents, all hash functions.", "why_tests_cant": "Empty filters, filters of full bytes and all combinations of messages; the failure for a bit depends on the element.", "anchors": ["src/commons/bloom.cpp:28-155", "src/p2p/chainmessage.cpp:780-816", "src/net.cpp:1482-1512"]}
{"id": "C153", "title": "The tables of known peer addresses stay consistent", "statement": "After any operations of the address manager no assert has failed; every known address has one entry, which is either in one tried bucket or in one to four new buckets; buckets have at most 64 entries; the number of addresses is the number of new and tried ones, at most 16384 and 4096; getaddr hands out different known addresses, 23 percent of all but at most 2500.", "quantifier": "All sequences of Add, Good, Attempt, Connected and GetAddr with all arguments, all random numbers, all hash functions.", "why_tests_cant": "Full buckets need thousands of addresses, and each operation has random choices in it; asserts in the code would end the node.", "anchors": ["src/p2p/addrman.cpp:83-387", "src/p2p/addrman.cpp:493-527", "src/p2p/addrman.h:125-247"]}
{"id": "C154", "title": "Peer addresses are learned, promoted and forgotten as intended", "statement": "A routable address is known after Add, and an address that was known keeps its port, source and table; Add forgets at most one address, never a tried one, and the bucket makes room by a useless entry if there is one, else by the oldest of four; Good makes the address a tried one and forgets none; of the tried addresses inspected the least recently successful one makes room; each port of an address can be learned and tried.", "quantifier": "All states reached by any operations, all addresses, times and random numbers.", "why_tests_cant": "Eviction happens in full buckets and depends on random numbers.", "anchors": ["src/p2p/addrman.cpp:40-58", "src/p2p/addrman.cpp:128-387", "src/p2p/addrman.h:200-206"]}
{"id": "C155", "title": "One group of peers can only reach part of the address tables", "statement": "Whatever the peers of one network group announce goes into 32 of the 256 new buckets; all other buckets, the tried ones and the addresses in them stay. Of the addresses of one group at most 256 are tried ones.", "quantifier": "All sequences of announcements of any length from the group, in all states reached by any operations, all hash functions.", "why_tests_cant": "It is a statement about an attacker that sends any addresses for any time.", "anchors": ["src/p2p/addrman.cpp:12-38", "src/p2p/addrman.cpp:206-368"]}
{"id": "C156", "title": "256-bit arithmetic is exact modulo 2^256", "statement": "Sums, differences, negatives, increments, decrements and products of 256-bit numbers are those of the integers modulo 2^256; a quotient q of a and b satisfies q*b <= a < (q+1)*b, and division fails exactly for zero; shifts, bit operations, the number of bits and comparisons are those of the integers.", "quantifier": "All pairs of 256-bit numbers, all 32-bit factors, all shifts.", "why_tests_cant": "Carries through all eight words and quotient bits at word borders are rare among 2^512 pairs.", "anchors": ["src/commons/arith_uint256.h:24-290", "src/commons/arith_uint256.cpp:22-184"]}
{"id": "C157", "title": "The compact form of a number keeps its leading bytes", "statement": "The 32 bits of the compact form mean mantissa * 256^(size-3), the sign is reported unless the number is zero, overflow exactly if the number needs more than 256 bits; writing a number never fails an assert, and reading it back gives the number without the bytes after its first two or three, off by at most one part in 2^15; writing what was read gives the same bits. The bytes of a number read back are the number.", "quantifier": "All 32-bit forms, all 256-bit numbers, both signs, all strings of 32 bytes.", "why_tests_cant": "The flags depend on the size and mantissa together; the sign bit moves a byte when the mantissa has its highest bit set.", "anchors": ["src/commons/arith_uint256.cpp:204-260"]}
{"id": "C158", "title": "Peer addresses are grouped by who owns them", "statement": "Two addresses have the same group exactly if neither is routable, or both are and they share 16 bits of the IPv4 address (mapped, translated, 6to4 or Teredo alike), 4 bits of an onion, 36 bits at the tunnel provider he.net, or 32 bits elsewhere in IPv6.", "quantifier": "All pairs of 128-bit addresses.", "why_tests_cant": "The classes overlap and are tested in order; most addresses of a random test are plain IPv6.", "anchors": ["src/netbase.cpp:606-665", "src/netbase.cpp:757-818"]}
{"id": "C159", "title": "A subnet contains exactly the addresses with its prefix", "statement": "A subnet of n bits is valid exactly if n is between 0 and the width of the address (32 for IPv4, else 128), and contains exactly the valid addresses with the same first n bits; one given by a mask contains the valid addresses equal under the mask; one of a single address contains only it. The text of a subnet of n bits says n; different subnets have different texts.", "quantifier": "All addresses, masks and numbers of bits.", "why_tests_cant": "Bans are decided by it; there are 2^128 addresses for each subnet.", "anchors": ["src/netbase.cpp:1035-1141"]}
{"id": "C160", "title": "Addresses, services and subnets are classified and ordered consistently", "statement": "An address is valid and routable exactly outside fixed ranges; no multicast address is routable; onions are always routable. The order of services is total, agrees with equality and with the order of the 18-byte keys, which are different for different services. The order of subnets is total and agrees with equality.", "quantifier": "All addresses, ports and subnets.", "why_tests_cant": "Ranges have borders at bits within bytes; maps with inconsistent orders lose entries.", "anchors": ["src/netbase.cpp:606-714", "src/netbase.cpp:737-741", "src/netbase.cpp:973-1015", "src/netbase.cpp:1143-1149"]}
{"id": "C161", "title": "Numbers in contract code are read as the standard says", "statement": "The LEB128 numbers in contract code (unsigned of 1, 7 and 32 bits, signed of 7, 32 and 64 bits) are accepted exactly when the WebAssembly standard accepts them, with the same value and the same number of bytes consumed, and every value fits its type.", "quantifier": "All byte sequences.", "why_tests_cant": "The last byte has unused bits with rules of their own, sign extension depends on the length; a number read differently by two nodes is a fork.", "anchors": ["src/vm/wasm/eos-vm/include/eosio/vm/leb128.hpp:13-70", "src/vm/wasm/eos-vm/include/eosio/vm/leb128.hpp:123-202"]}
{"id": "C162", "title": "Integer instructions compute what the standard says on both engines", "statement": "For every straight-line program of integer instructions, the interpreter gives the result of the WebAssembly standard or traps where it traps; the machine code emitted for the program, run on a processor in any state with or without the bit-count instructions, ends with the same operand stack, or with a processor exception exactly there. So the engines agree with each other.", "quantifier": "All programs of constants, arithmetic, comparisons, counts, conversions, drop and select; all operands; all processor states.", "why_tests_cant": "There are 2^128 operand pairs for each 64-bit instruction, and the special cases (division of the smallest number, counts of zero, shift amounts) are single points; a difference is a fork between nodes.", "anchors": ["src/vm/wasm/eos-vm/include/eosio/vm/interpret_visitor.hpp:284-420", "src/vm/wasm/eos-vm/include/eosio/vm/interpret_visitor.hpp:538-775", "src/vm/wasm/eos-vm/include/eosio/vm/x86_64.hpp:666-850", "src/vm/wasm/eos-vm/include/eosio/vm/x86_64.hpp:1050-1345", "src/vm/wasm/eos-vm/include/eosio/vm/x86_64.hpp:2478-2499"]}
{"id": "C163", "title": "A contract starts with its own memory and nothing else", "statement": "Whatever contracts ran before in the same context, a contract starts with exactly its declared pages accessible, holding its data segments (later ones win) and zeros elsewhere; no byte of another contract is visible; starting a parsed contract never takes the node down.", "quantifier": "All histories of starts, stores and growth, all declared memories and data segments.", "why_tests_cant": "The memory is reused between contracts and page protection is skipped when sizes agree; leaks depend on the sequence of sizes.", "anchors": ["src/vm/wasm/eos-vm/include/eosio/vm/allocator.hpp:373-446", "src/vm/wasm/eos-vm/include/eosio/vm/execution_context.hpp:62-86", "src/vm/wasm/eos-vm/include/eosio/vm/backend.hpp:63-71", "src/vm/wasm/eos-vm/include/eosio/vm/parser.hpp:220-229"]}
{"id": "C164", "title": "Contract memory grows and is bounded as the standard says", "statement": "memory.grow returns the old size and adds zeroed pages when the declared maximum and the machine limit allow it, else returns -1 and changes nothing; existing bytes are kept. A load or store goes through exactly when base plus offset, without wrapping, plus width lies inside the memory.", "quantifier": "All reachable memories, all requests, all addresses, offsets and widths.", "why_tests_cant": "Requests and addresses are 32-bit numbers; the accesses that matter lie at single bytes around page borders and at 2^32.", "anchors": ["src/vm/wasm/eos-vm/include/eosio/vm/execution_context.hpp:34-47", "src/vm/wasm/eos-vm/include/eosio/vm/interpret_visitor.hpp:131-134", "src/vm/wasm/eos-vm/include/eosio/vm/x86_64.hpp:2186-2229"]}
{"id": "C165", "title": "Multi-way branches of contracts reach the right target", "statement": "A `br_table` instruction of a contract continues at the case whose number is the index, or at the default if there is no such case, whatever the 32-bit index and however many cases there are; the operand stack there is the one the standard prescribes (values above the target's height removed, the result kept). The compiled code, which searches by comparisons patched in while the labels are read, and the interpreter, which reads a table, both do this. A contract whose table is cut short is refused, and compiling never ends the node.", "quantifier": "for every list of cases with their stack depths and results, every default, every index and every operand stack", "why_tests_cant": "The compiler produces a different tree of comparisons for every table size and patches branch targets it emitted many cases earlier; tests try a few small tables, and never the declared size at which the counter wraps.", "anchors": ["src/vm/wasm/eos-vm/include/eosio/vm/x86_64.hpp:226-294", "src/vm/wasm/eos-vm/include/eosio/vm/x86_64.hpp:2164-2183", "src/vm/wasm/eos-vm/include/eosio/vm/parser.hpp:486-500", "src/vm/wasm/eos-vm/include/eosio/vm/parser.hpp:600-622", "src/vm/wasm/eos-vm/include/eosio/vm/interpret_visitor.hpp:78-82", "src/vm/wasm/eos-vm/include/eosio/vm/execution_context.hpp:529-538"]}
{"id": "C166", "title": "The operator can exclude a block and take that back", "statement": "After `invalidateblock` the active chain does not contain the block, obeys all rules, still contains the protected blocks if the block was not in it, and, if nothing is protected, is the best known valid chain without that block; it stays excluded. `reconsiderblock` with the descendants puts the node back on the chain it was on.", "quantifier": "for every history of delivered blocks (forks, orphans and invalid blocks included), every known block other than genesis and every set of protected blocks", "why_tests_cant": "What happens depends on which branches are known, which chain was remembered as best and which blocks arrive later; tests exclude a block on a simple fork and look once.", "anchors": ["src/main.cpp:544-622", "src/main.cpp:1435-1484", "src/main.cpp:1506-1588", "src/main.cpp:1785-1798", "src/rpc/rpcblockchain.cpp:337-415"]}
{"id": "C167", "title": "Blocks and operator commands in any order leave a sound chain", "statement": "Whatever blocks arrive and whatever `invalidateblock` and `reconsiderblock` commands are given in between, the active chain is a linked chain from genesis whose blocks all passed `ConnectBlock` on exactly the chain below them. A block that may not be disconnected leaves the active chain only by an explicit `invalidateblock`, never by a block that arrives later or by `reconsiderblock`. Genesis is never left. No command, and no block other than one with a null previous hash or a producer without registration id, makes the node fail an assertion or loop for ever.", "quantifier": "for every sequence of delivered blocks and commands (any hash, genesis and unknown ones included), every verdict of the block checks and every set of protected blocks at each step", "why_tests_cant": "The commands set and clear flags on chains that are valid, so the flags no longer say anything about validity; the choice of the chain, the kept states of side branches and the orphans have to stay sound for every interleaving, tests try one or two.", "anchors": ["src/main.cpp:544-622", "src/main.cpp:1344-1398", "src/main.cpp:1435-1588", "src/main.cpp:1705-1830", "src/rpc/rpcblockchain.cpp:337-415"]}
{"id": "C168", "title": "Base 32 is the standard coding", "statement": "EncodeBase32 gives the text RFC 4648 prescribes in small letters, padding included. DecodeBase32 gives back exactly the bytes and calls the text valid, so different byte strings have different texts. A text that DecodeBase32 calls valid is, up to capital letters, the text of the bytes it returns.", "quantifier": "for all byte strings of any length and all texts without zero bytes", "why_tests_cant": "Each remainder modulo five uses its own branches and left over bits; there are infinitely many strings of each kind and the invalid texts are never tried.", "anchors": ["src/commons/util/util.cpp:365-416", "src/commons/util/util.cpp:422-531"]}
{"id": "C169", "title": "A Tor name stands for one address", "statement": "The printed name of a Tor address is read back as that address. Whatever name is accepted gives a Tor address, whose own name agrees with the given name in the first sixteen characters, in small letters. A name is accepted only if it is, up to capital letters, the printed name of the address.", "quantifier": "for all Tor addresses and all names without zero bytes", "why_tests_cant": "Names that carry more text after the sixteen characters are not among the test cases; whether such a name is accepted depends on the decoder's state at its end.", "anchors": ["src/netbase.cpp:570-582", "src/netbase.cpp:650", "src/netbase.cpp:716-718", "src/commons/util/util.cpp:422-531"]}
{"id": "C170", "title": "The median filter resists a minority", "statement": "A CMedianFilter of size n holds the last n values it was given. Its median always exists, and if more than half of the held values lie between two bounds the median does too.", "quantifier": "for all sizes, initial values and sequences of values, all bounds", "why_tests_cant": "The sequences and bounds are unlimited; the tests feed six values to one filter.", "anchors": ["src/commons/util/util.h:290-328"]}
{"id": "C171", "title": "Peers can not move the clock, but a wrong clock is reported", "statement": "Whatever times peers tell in their version messages, GetAdjustedTime is the system time and every message is handled without undefined behaviour. If at least five samples are there, their median is more than a second away from the clock and no peer is within a second, the user is warned.", "quantifier": "for all sequences of version messages from any addresses with any times", "why_tests_cant": "The filter starts with a value of its own, which only leaves it after two hundred peers; no test connects that many. Extreme times are never sent by honest peers.", "anchors": ["src/commons/util/util.cpp:850-905", "src/commons/util/util.h:290-328", "src/p2p/chainmessage.cpp:338"]}
{"id": "C172", "title": "Relayed transactions are served for fifteen minutes", "statement": "The relay memory serves under a name only data relayed under that name, serves every transaction until fifteen minutes after it was relayed, and after a relay keeps nothing that was not relayed in the last fifteen minutes.", "quantifier": "for all sequences of relays at times that do not go back", "why_tests_cant": "Needs relays of the same transaction at several distances in time mixed with others; the clock can not be driven in tests.", "anchors": ["src/net.cpp:1482-1495", "src/p2p/chainmessage.cpp:138-148"]}
{"id": "C173", "title": "Pings measure the peer", "statement": "A ping time that is reported is the positive time between a ping that went out and the answer with its nonce, with no other ping sent in between. After messages are sent to a peer a ping is outstanding or the last one is at most two minutes old. A peer that never gives a right answer to a ping is disconnected by the first check after twenty minutes.", "quantifier": "for all interleavings of sends, answers of any content, operator requests and checks at any times", "why_tests_cant": "Needs interleavings of overlapping pings and wrong answers over twenty minutes.", "anchors": ["src/p2p/sendmessage.hpp:29-68", "src/p2p/chainmessage.cpp:348-397", "src/net.cpp:759-763", "src/rpc/rpcnet.cpp:185"]}
{"id": "C174", "title": "The own address told to a peer", "statement": "GetLocal tells one of the own addresses, and none is more reachable from the peer, or as reachable with a higher score. Only routable addresses outside the networks excluded by the operator are told, and without -discover only addresses the operator gave. A peer on Tor is told a Tor address if there is one; other peers are told a Tor address only if there is no other.", "quantifier": "for all sequences of AddLocal and SeenLocal, all limits, all peer addresses", "why_tests_cant": "The choice depends on the classes of both addresses and on the votes of all earlier peers.", "anchors": ["src/net.cpp:168-226", "src/p2p/node.cpp:106-125", "src/netbase.cpp:824-910"]}
{"id": "C175", "title": "Saving and loading the known addresses loses none of them", "statement": "Take any state the address manager can reach by additions, connections, attempts, removals and time stamps. If it is saved and loaded with the same key and number of buckets, every new bucket has the same addresses in the same order with the same saved fields (address, port, time, source, last success, attempts), every tried bucket has the same addresses with the same saved fields, and no tried address is counted as lost. The limits applied while loading (four buckets for each new address, sixty-four addresses for each tried bucket) never drop anything.", "quantifier": "for all hash functions, all sequences of operations and all states these lead to", "why_tests_cant": "The file holds positions in a numbering that exists only while writing; an entry is lost only for particular mixes of new and tried entries, and the limits matter only with full buckets.", "anchors": ["src/p2p/addrman.h:250-383"]}
