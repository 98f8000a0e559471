#!/usr/bin/env python3
# Writes /verif/properties.jsonl from the table below (kept as the single source for the list).
import json, os
P = []
def p(title, statement, quantifier, why, anchors):
    P.append(dict(id="C%02d" % (len(P)+1), title=title, statement=statement,
                  quantifier=quantifier, why_tests_cant=why, anchors=anchors))

# ---- accounts
p("Balance operations move exactly the requested amount",
  "When an account balance operation (add, subtract, stake, unstake, freeze, unfreeze, vote, unvote, pledge, unpledge, DEX deal) reports success, the named bucket of the named token changes by exactly the requested amount in the documented direction, the counterpart bucket (same account or peer account) changes by exactly the opposite amount, and no other bucket, token or account field changes.",
  "every account pair, token, operation type and amount for which no 64-bit addition wraps",
  "Twelve operation types times two account shapes times unbounded amounts and pre-states; a unit test only samples some amounts.",
  ["src/entities/account.cpp: CAccount::OperateBalance", "src/commons/types.h: BalanceOpType", "src/entities/account.h: CAccountToken"])
p("No balance bucket is ever overdrawn",
  "A balance operation that takes an amount out of a bucket succeeds only if that bucket holds at least that amount, so no bucket ever underflows.",
  "every account state, operation, amount, and every finite sequence of operations over any set of accounts",
  "Underflow depends on the whole history of operations.",
  ["src/entities/account.cpp: CAccount::OperateBalance", "src/entities/account.cpp: CAccount::CheckBalance"])
p("A rejected balance operation changes nothing",
  "If a balance operation reports failure, the account and its peer are exactly as before.",
  "every account pair, token, operation and amount",
  "Failure paths are many and each must be side-effect free for all states.",
  ["src/entities/account.cpp: CAccount::OperateBalance"])
p("Token supply is conserved by balance operations",
  "Over any history of balance operations the sum over all accounts and buckets of a token equals the initial sum plus everything credited without a peer minus everything debited without a peer; and while that total fits in 64 bits no single bucket addition wraps.",
  "all finite histories of operations over all accounts",
  "A statement about sums over unbounded histories and account sets.",
  ["src/entities/account.cpp: CAccount::OperateBalance"])
# ---- KV caches
p("A stack of database caches behaves as one map",
  "Reading a key through any stack of nested state caches on top of the database returns the value of the most recent write or erase of that key made through that stack, or else the database value; reading never changes what later reads return.",
  "all stack depths, all interleavings of reads, writes and erases, all keys and values",
  "Read-through caching, tombstones and nesting interact; only a refinement proof covers all schedules.",
  ["src/persistence/dbaccess.h: CCompositeKVCache", "src/persistence/dbaccess.h: db_util::IsEmpty"])
p("Flushing a cache is invisible to readers",
  "Flushing a cache layer into its parent (or into the database) leaves the value seen for every key unchanged, both for a reader of the flushed layer and, afterwards, for a reader of the parent.",
  "all cache contents, all stack depths, all keys",
  "Needs equality of views for all keys and all contents, including tombstones shadowing lower entries.",
  ["src/persistence/dbaccess.h: CCompositeKVCache::Flush", "src/persistence/dbaccess.h: CSimpleKVCache::Flush"])
p("Undo restores the exact previous state",
  "If the operation log recorded while executing any sequence of writes and erases is undone, every key has exactly the value it had before the sequence.",
  "all starting states, all finite operation sequences (repeated keys included), all table mixes",
  "Repeated writes to one key make the order of undo matter; all sequences must be covered.",
  ["src/persistence/dbaccess.h: CCompositeKVCache::UndoDataList", "src/persistence/dbaccess.h: AddOpLog", "src/persistence/leveldbwrapper.h: CDBOpLogMap"])
p("Disconnecting a block restores the state before it",
  "Executing the block undo data produced while connecting a block returns every state table to its contents before the block, whatever the transactions did, and disconnecting several blocks in reverse order returns to the state before the first.",
  "all blocks, any number of transactions, any mix of tables, any number of blocks",
  "Quantifies over arbitrary transaction effects and reorganisation depth.",
  ["src/persistence/blockundo.cpp: CBlockUndoExecutor::Execute", "src/persistence/blockundo.cpp: CTxUndoOpLogger", "src/main.cpp: DisconnectBlock"])
p("Iterating a cached table lists exactly its live entries in order",
  "Iterating a table through a stack of caches yields, in strictly increasing key order, exactly the keys whose point read succeeds, each once, with the value the point read returns.",
  "all cache and database contents, all stack depths",
  "Merge iteration with shadowing and tombstones has unboundedly many alignments.",
  ["src/persistence/dbiterator.h: CDBCacheIteratorImpl", "src/persistence/dbiterator.h: CDBPrefixIterator"])
p("Database keys of different tables and entries never collide",
  "Two database keys built from table prefix and entry key are equal only if both the table and the entry are equal, a prefix scan of one table never meets a key of another table, and fixed-width numeric key parts sort as the numbers do.",
  "all pairs of tables, all entry keys",
  "Collision freedom ranges over all pairs of keys.",
  ["src/persistence/dbconf.h: GenDbKey/ParseDbKey/kDbPrefix table", "src/persistence/delegatedb.cpp", "src/commons/leb128.h: CFixedLeb128"])
# ---- replay
p("No transaction is confirmed twice on the active chain",
  "Along any history of connecting and disconnecting blocks, no transaction id occurs twice in the active chain (in one block or in different blocks).",
  "all block sequences, all reorganisations, all valid heights and cache heights",
  "The recent-transaction cache forgets old blocks; safety relies on the valid-height window lining up exactly with the cache length for every history.",
  ["src/main.cpp: ConnectBlock, DisconnectBlock, CheckBlock", "src/tx/tx.cpp: CBaseTx::IsValidHeight", "src/persistence/txdb.cpp: CTxMemCache"])
p("The recent-transaction cache is a set across layers",
  "A transaction is reported as present through a stack of transaction caches exactly if the last add or remove of it through the stack was an add (or it is in the bottom layer), and flushing a layer down does not change the answer.",
  "all stacks, all interleavings of block additions and removals",
  "Negative markers in upper layers must shadow lower layers under all interleavings.",
  ["src/persistence/txdb.cpp: CTxMemCache"])
# ---- serialization
p("Variable-length integers round-trip and fit their buffer",
  "Every unsigned integer written with the variable-length encoding is read back unchanged with nothing left over, two different integers never have encodings where one is a prefix of the other, the writer's fixed temporary buffer is never overrun, and the announced size equals the number of bytes written.",
  "all unsigned 8..64 bit integers (in fact all naturals for the round trip)",
  "2^64 inputs.",
  ["src/commons/serialize.h: WriteVarInt, ReadVarInt, GetSizeOfVarInt"])
p("Compact sizes have one canonical encoding",
  "Reading a compact size accepts exactly the canonical encodings of sizes up to the maximum, returns the encoded size, and rejects every other byte string.",
  "all byte strings and all sizes",
  "Quantifies over all byte strings.",
  ["src/commons/serialize.h: WriteCompactSize, ReadCompactSize"])
p("Fixed-width key integers round-trip and sort numerically",
  "The fixed-width big-endian base-128 encoding used in index keys decodes to the original number, always has the same length, and byte-wise order of encodings equals numeric order.",
  "all 16/32/64-bit integers",
  "All pairs of 64-bit integers.",
  ["src/commons/leb128.h: CFixedLeb128"])
p("User identifiers round-trip through serialization",
  "Every user identifier (null, registration id, key id, public key) that can be written is read back as the same identifier, encodings of different identifiers are different, and unknown length tags are rejected.",
  "all identifiers and all byte strings",
  "Infinite input space; ambiguity between kinds would only show on rare lengths.",
  ["src/entities/id.h: CUserID::Serialize/Unserialize", "src/entities/id.h: CRegID"])
# ---- tx basics
p("Permission check grants exactly the granted bits",
  "An account passes a permission check exactly if every requested permission bit is set in its permission mask.",
  "all masks and all requests (64-bit)",
  "2^128 combinations.",
  ["src/entities/account.h: CAccount::CheckPerms"])
p("A successful transfer moves the coins and nothing else",
  "A successful coin transfer debits the sender by fee plus all transferred amounts, credits each recipient by its amount less the friction fee, credits friction fees to the risk reserve, and keeps the total of every token unchanged apart from the fee.",
  "all ledgers, all recipient lists (repeated recipients and self transfers included), all amounts and friction ratios",
  "Recipient lists with repetitions and aliasing of accounts are unbounded.",
  ["src/tx/cointransfertx.cpp: CCoinTransferTx::ExecuteTx", "src/tx/tx.cpp: CBaseTx::ExecuteFullTx"])
p("Contract fuel never exceeds what the fee pays for",
  "The fuel limit granted to a contract run, multiplied by the fuel rate, never exceeds the fee minus the reserved part, never exceeds the block fuel limit, and the fuel fee charged for any run within the limit is at most the fee paid.",
  "all fees, fuel rates and fuel consumptions",
  "Integer-division rounding for all inputs.",
  ["src/tx/contracttx.cpp: GetFuelLimit", "src/tx/tx.cpp: CBaseTx::GetFuelFee"])
# ---- UTXO
p("An unspent output is spent at most once",
  "Once a UTXO output has been consumed by an accepted transaction no later transaction (nor a second input of the same transaction) can consume it, and only outputs that were created can be consumed.",
  "all sequences of UTXO transactions, all input lists",
  "Quantifies over histories and duplicated inputs.",
  ["src/tx/coinutxotx.cpp: CCoinUtxoTransferTx::ExecuteTx", "src/persistence/txutxodb.cpp"])
p("A UTXO transaction creates no value",
  "For every coin, the value of the outputs created plus fees is at most the value of the consumed outputs plus what is debited from accounts.",
  "all UTXO sets and all transactions",
  "Sum overflow and coin-mixing corner cases need all inputs.",
  ["src/tx/coinutxotx.cpp: CCoinUtxoTransferTx::CheckTx, ExecuteTx"])
p("A UTXO is spendable only when all its conditions hold",
  "A transaction consuming an output is accepted only if, for every condition attached to that output (payee address, multi-signature, password hash, claim lock, reclaim lock), the matching proof is supplied and valid at the current height.",
  "all condition lists, proof lists and heights",
  "Combinations of conditions and proofs are unbounded.",
  ["src/tx/coinutxotx.cpp: CheckUtxoOutCondition"])
p("An m-of-n output needs m different signers",
  "A multi-signature condition is satisfied only if at least m different listed members signed.",
  "all signer lists, signature lists and thresholds",
  "Duplicate-signature cases for all lists.",
  ["src/tx/coinutxotx.cpp: VerifyMultiSig"])
# ---- votes / delegates
p("Votes received equal votes cast",
  "After any sequence of accepted vote transactions, the votes recorded for each candidate equal the sum over voters of the votes they currently give that candidate, and each voter's locked voting balance equals the total of their votes.",
  "all histories of vote transactions by all voters",
  "An accounting identity over unbounded histories.",
  ["src/entities/account.cpp: CAccount::ProcessCandidateVotes, StakeVoteBcoins", "src/tx/delegatetx.cpp: CDelegateVoteTx::ExecuteTx"])
p("Delegates are the top vote receivers",
  "The delegate list is exactly the candidates with most votes, sorted by votes descending with ties broken by registration id ascending, and nobody outside the list has more votes than someone in it.",
  "all vote tables and list lengths",
  "Sorting by an encoded index key must be right for all vote counts.",
  ["src/persistence/delegatedb.cpp: GetTopVoteDelegates, SetDelegateVotes, EraseDelegateVotes"])
p("Block producer shuffling is a permutation",
  "Shuffling the delegates for any height, time and seed yields a reordering of the same delegates: none lost, none duplicated; the producer chosen for a slot is always an active delegate, and in consecutive slots of one round every delegate gets exactly one.",
  "all delegate lists, all hash outputs, all times",
  "Holds for every possible hash output and delegate count.",
  ["src/miner/miner.cpp: ShuffleDelegates, GetCurrentDelegate"])
p("New delegates take over only after the full delay",
  "The active delegate list changes only to the list counted from votes at a multiple-of-100 height, and only when the required number of blocks has passed since the count.",
  "all block histories and vote changes",
  "A temporal property over unbounded histories.",
  ["src/chain/blockdelegates.cpp: ProcessBlockDelegates"])
# ---- DEX
p("DEX orders lock what they may spend and give it back",
  "Placing an order freezes exactly the amount the order can spend; cancelling returns exactly the unspent part to the free balance and removes the order; an order can be cancelled only by its owner, once.",
  "all accounts, orders and histories",
  "Relies on an invariant linking balances and the order book across all histories.",
  ["src/tx/dextx.cpp: CDEXOrderBaseTx::ExecuteTx, CDEXCancelOrderTx::ExecuteTx", "src/persistence/dexdb.cpp"])
p("DEX settlement conserves every token",
  "Settling any list of deals leaves the total of every token over all accounts (free plus frozen) unchanged: what buyers pay equals what sellers, matchers and the reserve receive.",
  "all order books, deal lists, prices, fee ratios",
  "Conservation over arbitrary deal lists and rounding.",
  ["src/tx/dextx.cpp: CDealItemExecuter::Execute", "src/tx/dextx.cpp: CDEXSettleTx::ExecuteTx"])
p("A limit order is never executed at a worse price",
  "In every accepted deal the buyer of a limit order pays at most its limit price and the seller of a limit order receives at least its limit price for the traded asset, before fees.",
  "all deals and orders",
  "Rounding and tolerance corner cases for all amounts.",
  ["src/tx/dextx.cpp: CDealItemExecuter::Execute, CheckOrderAmount, CalcCoinAmount"])
p("Frozen balances always cover the open orders",
  "At every point of every history, each account's frozen balance of a token is at least the sum of what its open orders can still spend of that token, so settlement and cancellation never fail for lack of frozen funds and no order is filled beyond its size.",
  "all histories of order placement, settlement and cancellation",
  "An inductive invariant over unbounded histories.",
  ["src/tx/dextx.cpp", "src/entities/dexorder.h", "src/persistence/dexdb.cpp"])
p("Operator and asset fees are split without loss",
  "When a registration or issue fee is charged, the reserve share plus the shares paid to block producers equals exactly the fee charged, for any number of producers and any share ratio.",
  "all fees, ratios and delegate lists",
  "Division remainders for all inputs.",
  ["src/tx/dexoperatortx.cpp: ProcessDexOperatorFee", "src/tx/assettx.cpp: ProcessAssetFee", "src/entities/proposal.cpp: ProcessAxcInFee"])
# ---- CDP
p("CDP totals and indexes agree with the CDPs",
  "After any sequence of CDP creations, updates and closures, the recorded global collateral and global debt of a pair equal the sums over open CDPs, every open CDP appears exactly once in the collateral-ratio index and the height index, and closed CDPs appear nowhere.",
  "all histories of CDP operations",
  "Several redundant indexes must agree after every history.",
  ["src/persistence/cdpdb.cpp: NewCDP, UpdateCDP, EraseCDP, SaveCdpIndexData, EraseCdpIndexData"])
p("Pledged collateral equals the owner's open CDPs",
  "Each account's pledged balance of an asset equals the collateral recorded in its open CDPs of that asset.",
  "all histories of CDP stake, redeem, liquidate, force-liquidate operations",
  "Inductive invariant across transaction types.",
  ["src/tx/cdptx.cpp: CCDPStakeTx, CCDPRedeemTx, CCDPLiquidateTx", "src/tx/blockpricemediantx.cpp: CCdpForceLiquidator"])
p("Stablecoins in circulation are backed by recorded debt",
  "Every stablecoin minted by a CDP operation is recorded as debt of that CDP, and debt is reduced only by stablecoins burned.",
  "all CDP operations and balances",
  "Depends on interest/shortfall cases for all balances.",
  ["src/tx/cdptx.cpp: CCDPStakeTx::ExecuteTx, SellInterestForFcoins, CCDPRedeemTx::ExecuteTx, CCDPInterestForceSettleTx"])
p("CDP debt can grow only with enough collateral",
  "A CDP is opened or given more debt, and collateral is withdrawn, only if its collateral ratio afterwards is at least the configured starting ratio, and only the owner can do so.",
  "all CDPs, prices, parameters",
  "Threshold logic over all inputs.",
  ["src/tx/cdptx.cpp: CCDPStakeTx::ExecuteTx, CCDPRedeemTx::ExecuteTx"])
p("Liquidation conserves coins and never overcharges",
  "In a liquidation the collateral taken from the owner equals what the liquidator receives plus what returns to the owner, the liquidator pays what it declared or less, and the debt removed plus penalty equals the stablecoins paid.",
  "all CDPs, ratios bands and amounts",
  "Floating point rates: must hold for any rounding.",
  ["src/tx/cdptx.cpp: CCDPLiquidateTx::ExecuteTx, ProcessPenaltyFees"])
p("Interest is charged for every block exactly once",
  "The parameter intervals used to compute CDP interest partition the elapsed block range: each elapsed block is charged under exactly one parameter set, the one in force at that height.",
  "all parameter-change histories and block ranges",
  "Arbitrary numbers of parameter changes and boundary alignments.",
  ["src/persistence/sysparamdb.h: GetCdpInterestParamChanges", "src/tx/cdptx.cpp: ComputeCDPInterest"])
# ---- price
p("The median price is a median",
  "The computed median of a non-empty price list is independent of the order of feeds, and at least half the feeds are at or above it and at least half at or below it, so a minority of feeders cannot move it outside the honest range.",
  "all price lists",
  "All list lengths, orders and values.",
  ["src/persistence/pricefeeddb.cpp: ComputeMedianNumber"])
p("The price window contains exactly the recent feeds",
  "The median at a height uses exactly the prices fed in the configured number of last blocks, one price per feeder and block; disconnecting a block restores the window.",
  "all block histories, feeds and window sizes",
  "Sliding window correctness over all histories.",
  ["src/persistence/pricefeeddb.cpp: PushBlock, UndoBlock, AddPrice, ComputeBlockMedianPrice"])
# ---- governance
p("A proposal executes at most once and only with a two-thirds majority",
  "A proposal takes effect only after at least n - n/3 different governors approved it, before its expiry height, and never a second time.",
  "all sequences of approvals by any senders at any heights",
  "Histories of approvals with duplicates, expiry and threshold boundary.",
  ["src/tx/proposaltx.cpp: CProposalApprovalTx::CheckTx, ExecuteTx", "src/persistence/sysgoverndb.h"])
p("A governed parameter reads back as set",
  "After a proposal sets a system, CDP or miner-fee parameter, reading that parameter returns the value set, and other parameters are unaffected.",
  "all parameters and values in the permitted range",
  "All values; the zero value is special.",
  ["src/persistence/sysparamdb.h: SetParam, GetParam, SetCdpParam, GetCdpParam, SetMinerFee, GetMinerFee"])
p("CDP thresholds stay ordered",
  "Whatever CDP parameter proposals are executed, start-collateral ratio > start-liquidate ratio > force-liquidate ratio, and force ratio times discount stays at least one.",
  "all sequences of CDP parameter proposals",
  "Histories of multi-parameter updates.",
  ["src/entities/proposal.cpp: CGovCdpParamProposal::CheckProposal, ExecuteProposal"])
p("A foreign-chain deposit is minted at most once and supply matches",
  "For each foreign transaction id the mirrored coins are minted at most once, amounts paid to user, producers and gateway sum to the deposited amount, and recorded supply equals minted minus burned and never exceeds the maximum.",
  "all sequences of swap-in and swap-out proposals",
  "History property.",
  ["src/entities/proposal.cpp: CGovAxcInProposal, CGovAxcOutProposal", "src/persistence/axcdb.h"])
p("User-issued asset supply is capped and owner controlled",
  "An asset symbol can be issued once; its total supply never exceeds the maximum and is increased only by its owner while mintable; the total of all balances of the asset equals its recorded supply.",
  "all histories of issue and update transactions",
  "History property with overflow corner cases.",
  ["src/tx/assettx.cpp: CUserIssueAssetTx::ExecuteTx, CUserUpdateAssetTx::ExecuteTx", "src/persistence/assetdb.cpp"])
# ---- consensus
p("A globally final block is never reverted by reorganisation",
  "Once a block of the active chain is marked globally final, choosing or activating any other best chain never removes it from the active chain, and the finality height never decreases.",
  "all sequences of new best chains, confirmations and connection failures",
  "Arbitrary fork schedules.",
  ["src/main.cpp: ActivateBestChain", "src/miner/pbftmanager.cpp: UpdateGlobalFinBlock"])
p("Finality needs a two-thirds quorum of distinct producers",
  "A block is locally or globally finalised by messages only if at least n - n/3 different active producers sent a message for it; hence two different blocks at one height can both be finalised only if more than n/3 producers signed both.",
  "all message multisets and delegate sets",
  "Quorum intersection for all n and all message schedules.",
  ["src/miner/pbftmanager.cpp: CPBFTMan::UpdateLocalFinBlock, UpdateGlobalFinBlock, GetFinalBlockMinerCount", "src/p2p/protocol.cpp: operator<(CPBFTMessage)"])
p("The Merkle root commits to the transaction list",
  "Two blocks that pass the duplicate-transaction check and have the same Merkle root and number of transactions have the same transactions in the same order (for a collision-free hash); with equal roots and different counts one of them must contain a duplicated transaction.",
  "all transaction lists",
  "The odd-level duplication rule (CVE-2012-2459) is only excluded by an argument over all sizes.",
  ["src/persistence/block.cpp: CBlock::BuildMerkleTree", "src/main.cpp: CheckBlock"])
p("Merkle branches verify exactly the included transaction",
  "The branch produced for any transaction of a block verifies against the block's Merkle root at that index, and no other leaf verifies with the same branch and index.",
  "all block sizes and indexes",
  "All tree shapes.",
  ["src/persistence/block.cpp: GetMerkleBranch, CheckMerkleBranch"])
p("Partial Merkle trees prove exactly the matched transactions",
  "Building a partial Merkle tree for any subset of a block and extracting it yields the same root and exactly the chosen transactions in order.",
  "all block sizes and match sets",
  "All tree shapes and all subsets.",
  ["src/chain/merkletree.cpp: CPartialMerkleTree"])
p("Chain view queries are consistent with the block tree",
  "Setting the tip makes the active chain exactly the ancestors of the tip; ancestor lookup through skip links returns the ancestor at the requested height; the fork point of two chains is their last common block; block locators list existing blocks in decreasing height ending at genesis.",
  "all block trees and heights",
  "Skip-list arithmetic and vector truncation for all heights.",
  ["src/chain/chain.cpp: CChain::SetTip, GetLocator, FindFork", "src/main.cpp: GetSkipHeight, CBlockIndex::GetAncestor"])
p("Block rewards are paid exactly once after maturity",
  "The reward of each block is credited exactly once, when the block has the maturity number of successors, never before; disconnecting blocks takes it back.",
  "all chain growth histories",
  "Temporal property over all histories.",
  ["src/main.cpp: ConnectBlock (mature reward)", "src/tx/blockrewardtx.cpp"])
p("Block reward equals the fees collected less fuel",
  "A block is accepted only if the reward transaction claims, per fee coin, exactly the sum of fees minus fuel fees of its transactions, and the header's fuel fee equals the sum of fuel fees.",
  "all blocks",
  "All transaction lists.",
  ["src/main.cpp: ConnectBlock", "src/miner/miner.cpp: CreateNewBlockForStableCoinRelease"])
# ---- containers, VM
p("Bounded containers stay bounded and keep what they promise",
  "The bounded message maps and sets used by the network and consensus code never exceed their limit, contain only inserted elements, and evict in the documented order.",
  "all insertion and erasure sequences",
  "All operation sequences.",
  ["src/commons/limitedmap.h", "src/commons/mruset.h", "src/miner/pbftlimitmap.h"])
p("Contract account funds are conserved and released once",
  "A contract user's free plus time-locked funds change only by the amount of each operation; locked funds become free exactly when their timeout height is reached, exactly once.",
  "all sequences of contract account operations and heights",
  "History property with overflow and merging cases.",
  ["src/vm/luavm/appaccount.cpp: CAppUserAccount"])
p("The signature cache never turns an invalid signature valid",
  "Signature verification through the cache returns true exactly when direct verification of the same hash, signature and key returns true, for every cache history.",
  "all sequences of verifications",
  "Cache history dependence.",
  ["src/main.cpp: VerifySignature", "src/sigcache.cpp: CSignatureCache"])
p("Whatever identifier is received can be written again",
  "Every user identifier decoded from any byte string can be serialized again without aborting the process.",
  "all byte strings",
  "Quantifies over all byte strings a peer may send; the failing inputs are malformed public keys.",
  ["src/entities/id.h: CUserID::Unserialize, CUserID::Serialize", "src/entities/key.h: CPubKey::Set"])
p("A user identifier has one accepted encoding",
  "Two different byte strings are never both accepted as encodings of the same user identifier.",
  "all pairs of byte strings",
  "Quantifies over all pairs of byte strings.",
  ["src/entities/id.h: CUserID::Unserialize", "src/commons/serialize.h: ReadVarInt"])
p("A contract's work is metered",
  "Every burn request of a contract run is counted; a run is accepted only if none was refused and the fuel charged, which is at most the limit, is the cost of everything done; once the limit is passed the contract can do no further work.",
  "all limits and sequences of burn requests, including contracts that catch errors",
  "All request sequences; the failing ones catch the out-of-fuel error.",
  ["src/vm/luavm/lua/lburner.c", "src/vm/luavm/luavm.cpp: CLuaVM::Run"])
p("The fuel rate follows the load",
  "The fuel rate never drops below its minimum, moves by at most a tenth per block, falls under low load, and rises under high load.",
  "all chains",
  "Depends on double rounding and truncation for every rate value and on arbitrarily long histories.",
  ["src/miner/miner.cpp: GetElementForBurn", "src/main.cpp: AcceptBlock"])
p("Block rewards are paid only out of fees that were charged",
  "On every reachable chain the supply of each coin, plus the fees of blocks whose reward is not mature yet, plus all fuel fees, equals the genesis supply plus what transactions minted less what they burned plus the inflation part of matured rewards: fees neither vanish nor appear from nowhere.",
  "all sequences of block connections and disconnections, all block contents",
  "Needs an invariant over whole chains; the failing blocks contain a special transaction type that no honest producer makes.",
  ["src/main.cpp: ConnectBlock", "src/tx/tx.cpp: CBaseTx::ExecuteFullTx", "src/tx/cdptx.cpp: CCDPInterestForceSettleTx", "src/tx/blockrewardtx.cpp"])
p("The block index survives a restart",
  "After a restart every accepted block is found in the block index under its own hash with its own parent, height, time and fuel fee.",
  "all sets of accepted blocks",
  "The failing blocks have a header field value that no honest producer makes.",
  ["src/persistence/block.h: CBlockIndex, CDiskBlockIndex", "src/persistence/blockdb.cpp: LoadBlockIndexes", "src/main.cpp: AddToBlockIndex"])
p("Validating a UTXO transaction never crashes the node",
  "For every transaction a peer can send, checking it ends in acceptance or rejection, never in a null pointer dereference.",
  "all transactions that can be decoded, all chain states",
  "The failing messages carry a condition type byte no wallet produces.",
  ["src/entities/utxo.h: CUtxoCondStorageBean", "src/tx/coinutxotx.cpp: CheckUtxoOutCondition"])
p("Validity of a UTXO transaction does not depend on local options",
  "Two nodes with the same chain state but different command line options give the same verdict on every transaction.",
  "all chain states, transactions and settings of the transaction index option",
  "Tests run one configuration; the disagreement forks the chain.",
  ["src/tx/coinutxotx.cpp: GetUtxoTxFromChain", "src/init.cpp: -txindex"])
p("The cached tip block is the block at the tip",
  "After every start, connected block and disconnected block, the block cached beside the active chain (used to choose the block producer when transactions enter the memory pool) is the block at the tip of the active chain.",
  "all block trees and sequences of chain operations",
  "The cache is only wrong after a restart or a reorganisation, and only transactions that read the current producer notice.",
  ["src/chain/chain.cpp:107-116", "src/main.cpp:1309-1377", "src/main.cpp:2270-2280"])
p("Accounts without a public key cannot sign",
  "No transaction, block or finality message is ever accepted as signed by an account that has no valid public key (such as a contract account), whatever signatures the node verified before.",
  "all histories of signature checks, all accounts, messages and signature strings",
  "The accepted strings are forged from another key's signature of the same hash and only pass while that signature sits in the cache.",
  ["src/sigcache.cpp: ComputeEntry", "src/main.cpp: VerifySignature", "src/tx/tx.cpp: CheckBaseTx", "src/miner/miner.cpp: VerifyRewardTx", "src/miner/pbftmanager.cpp: CheckPBFTMessage", "src/vm/luavm/lmylib.cpp: ExVerifySignatureFunc"])
p("A contract cannot stop the node",
  "Whatever operations on its users' funds a Lua contract asks for (any kind, amount, timeout height and tag, in any order and over any history of runs), the node answers with success or failure of the transaction; it never aborts.",
  "all histories of contract transactions, all lists of requested operations, all stored accounts reachable from the empty store",
  "One unusual combination of timeout, amount and tag among 2^100 is enough; a test would have to guess it, and the abort ends the test process itself.",
  ["src/vm/luavm/appaccount.cpp", "src/vm/luavm/lmylib.cpp", "src/vm/luavm/luavmrunenv.cpp"])
p("Transferring all of a contract user's funds moves everything",
  "When a contract asks to transfer all funds of one of its users to another, and the funds fit, the transaction succeeds, the sending user is left with nothing, the receiving user has both users' funds with every locked amount under the same tag and timeout height, and no other user changes.",
  "all stores of user accounts, all pairs of users, all heights, all splits into free and locked funds",
  "Depends on the relation between the heights of the locked funds, the tip and the executing block; tests rarely lock funds that become due exactly in the executing block.",
  ["src/vm/luavm/lmylib.cpp", "src/vm/luavm/appaccount.cpp"])
p("A checked contract run keeps the users' funds backed",
  "When a contract has its users' funds checked, a successful run changes the sum of all its users' free and locked funds by exactly the amount sent with the transaction less the amount the contract account paid out.",
  "all stores, all lists of operations and calls, all amounts of their types",
  "The check adds signed 64 bit numbers while the accounts use unsigned ones; differences need extreme amounts no test uses.",
  ["src/vm/luavm/luavmrunenv.cpp", "src/vm/luavm/lmylib.cpp", "src/vm/luavm/appaccount.cpp"])
p("A contract pays only from its own account",
  "A successful contract run creates and destroys no coins of any kind, changes free balances only, and lowers no balance other than the contract's own and, by at most the transfers made in the name of the sender of the transaction, that sender's.",
  "all ledgers whose supplies fit in 64 bits, all lists of operations and transfers, all amounts",
  "Additions to balances wrap silently and come before the subtractions; conservation follows from the sums over the whole list, which no sampled list exercises.",
  ["src/vm/luavm/luavmrunenv.cpp", "src/entities/account.cpp"])

p("A DEX order cannot stop the node",
  "Checking and executing any order, cancellation or settlement transaction ends with success or rejection; no assertion fails and no undefined operation is executed, whatever prices and amounts the transaction carries.",
  "all transactions, prices, amounts and reachable order books",
  "The failing numbers lie at the limits of 64 bits and the assertion on completed orders depends on the rounding of all earlier deals of the order.",
  ["src/tx/dextx.cpp: CalcCoinAmount, CDEXOrderBaseTx::ExecuteTx, CDealItemExecuter::Execute", "src/tx/dextx.cpp: CheckOrderPrice"])
p("The list of governors changes only as proposed",
  "An executed proposal that adds (or removes) a governor makes that account a governor (or not), and changes nobody else's role.",
  "all governor lists and all proposals",
  "The special case is the empty stored list, which stands for a default governor; only long histories reach it again.",
  ["src/persistence/sysgoverndb.h: GetGovernors, AddGovernor, EraseGovernor", "src/entities/proposal.cpp: CGovBpMcListProposal::ExecuteProposal"])

p("An approved number of block producers takes effect at its height",
  "After proposals for the number of block producers were executed, the number in use at a height is the one of the last executed proposal whose effective height has been reached.",
  "all histories of proposals and all heights",
  "Needs several overlapping schedules and heights on both sides of each.",
  ["src/persistence/sysparamdb.h: GetTotalBpsSize, SetNewTotalBpsSize, SetCurrentTotalBpsSize", "src/entities/proposal.cpp: CGovBpSizeProposal::ExecuteProposal"])

p("A new proposal can be approved",
  "A proposal that was just accepted is open for approval for as many blocks as the governed life of proposals says; no permitted parameter value makes proposals expire before they can be approved.",
  "all permitted parameter values, heights and proposals",
  "The failing value is one of 2^32, at the end of the permitted range.",
  ["src/tx/proposaltx.cpp: CProposalRequestTx::ExecuteTx, CProposalApprovalTx::CheckTx", "src/config/sysparams.h: PROPOSAL_EXPIRE_BLOCK_COUNT"])

p("A governed CDP parameter cannot break the parameter store",
  "Setting a CDP parameter of any coin pair that a proposal may name succeeds, reads back, leaves other pairs alone, and never throws.",
  "all sequences of proposals over all coin pairs",
  "Needs pairs whose order is inconsistent, inserted in a certain sequence into a balanced tree.",
  ["src/config/scoin.h: CCdpCoinPair::operator<", "src/persistence/dbaccess.h: SetData, AddDataToMap", "src/entities/proposal.cpp: CGovCdpParamProposal"])

p("Redundant parameter changes cost nothing",
  "The interest charged for a CDP depends only on the parameters in force at each height; executing a proposal that sets an interest parameter to the value it already has does not change what any CDP owes.",
  "all histories of parameter changes and all block ranges",
  "Equality of two charges over arbitrary histories; the difference comes from rounding each period separately.",
  ["src/persistence/sysparamdb.h: GetCdpInterestParamChanges", "src/tx/cdptx.cpp: ComputeCDPInterest"])

p("Nodes with the same chain derive the same prices",
  "Two nodes that have the same active chain accept the same next blocks and derive the same median prices, no matter which forks each of them followed, when each was restarted, or when blocks were disconnected.",
  "all pairs of histories that end in the same chain, all next blocks",
  "Compares two arbitrary histories; the price cache is memory only and is rebuilt differently on restart.",
  ["src/persistence/pricefeeddb.cpp: ReleadBlocks, AddPriceByBlock, PushBlock, UndoBlock", "src/main.cpp: ConnectBlock, DisconnectBlock", "src/init.cpp: AppInit"])

p("The recorded feed height is that of the last feed",
  "The height stored with a median price is the height of the latest block of the active chain that fed the pair; there is a stored price exactly when some block of the chain fed the pair.",
  "all histories of blocks, reorganisations and restarts, all pairs",
  "Inductive over the chain; the height decides whether a price counts as active for loans, and is wrong only for unusual block layouts.",
  ["src/persistence/pricefeeddb.cpp: GetMedianPrice, ComputeBlockMedianPrice", "src/entities/price.h: CMedianPriceDetail::IsActive"])
p("A CDP transaction cannot stop the node",
  "Executing any stake, redemption, liquidation, interest settlement or forced liquidation ends with success or a rejection; no transaction and no state reached by transactions makes an assertion fail.",
  "all histories, transactions, prices and parameter values in range",
  "The failing amounts are chosen to wrap a 64-bit sum; the rounded quotients in the assertions must be bounded for every input.",
  ["src/entities/cdp.cpp: AddStake, Redeem, PartialLiquidate", "src/tx/cdptx.cpp: CCDPLiquidateTx::ExecuteTx", "src/persistence/cdpdb.cpp: GetCdpListByCollateralRatio"])

p("The list of CDPs to settle is complete and accepted",
  "The settlement transaction a block producer assembles lists the open CDPs whose interest is due, none twice, never more than the transaction is allowed to contain.",
  "all states, heights and lists of coin pairs",
  "Needs a hundred due CDPs in one pair and more in the next.",
  ["src/tx/cdptx.cpp: GetSettledInterestCdps, CCDPInterestForceSettleTx::CheckTx", "src/miner/miner.cpp: CreateNewBlock", "src/persistence/cdpdb.cpp: CCdpHeightIndexCache"])

p("Forced liquidation finds the CDPs below the threshold",
  "Forced liquidation looks at every open CDP of a pair whose collateral ratio at the current price is at or below the forced ratio, at no CDP above it, once each, in ascending order of the ratio.",
  "all CDPs, prices and parameters",
  "The index key is a rounded double that overflows or vanishes for extreme amounts; completeness is about all amounts.",
  ["src/persistence/cdpdb.cpp: GetCdpListByCollateralRatio, MakeCdpRatioIndexKey", "src/tx/blockpricemediantx.cpp: CCdpForceLiquidator::Execute"])

p("A CDP above the liquidation ratio cannot be liquidated",
  "A liquidation is accepted only if the collateral ratio of the CDP at the current price is at or below the starting ratio of liquidation.",
  "all CDPs, prices, parameters, liquidators and amounts",
  "The ratio is computed in doubles and converted to an integer; the conversion is undefined for enormous ratios.",
  ["src/entities/cdp.h: CUserCDP::GetCollateralRatio", "src/tx/cdptx.cpp: CCDPLiquidateTx::ExecuteTx"])

p("CDP transactions have the same outcome on all processors",
  "Nodes that convert out-of-range doubles to integers differently, as the C++ standard allows, accept the same CDP transactions and store the same data.",
  "all pairs of conversions that agree in range, all transactions",
  "Quantifies over processors; tests run on one.",
  ["src/tx/cdptx.cpp: CalcCollateralRatio, CCDPStakeTx::ExecuteTx", "src/entities/cdp.h: GetCollateralRatio", "src/persistence/cdpdb.cpp: MakeCdpRatioIndexKey"])


p("A CDP pair below its global floor is locked",
  "If the collateral of all open positions of a coin pair together, at the current median price, does not reach the pair's global floor ratio of all their debt, then no transaction on a position of that pair is accepted (opening, adding, redeeming - even paying back debt -, liquidating, settling interest), and forced liquidation passes the pair over.",
  "All histories of CDP transactions, all prices and parameters, totals below 2^64, main network.",
  "The decision compares a double computed from running totals; tests cover a few totals and prices, not every history that leads to the totals.",
  ["src/entities/cdp.h:198-211", "src/tx/cdptx.cpp:192-361", "src/tx/cdptx.cpp:400-545", "src/tx/cdptx.cpp:568-812", "src/tx/cdptx.cpp:898-965", "src/tx/blockpricemediantx.cpp:273-428"])

p("Authority in contract calls comes from signatures or from the contracts themselves",
  "While a universal transaction runs, every permission carried by an executed action belongs to the payer, to an account whose signature was verified, or to a contract whose program ran earlier in the same transaction; an action issued by a contract carries only that contract's code permission or, if it is an action to itself, also its own number and permissions it was called with.",
  "all contract programs, states, transactions and positions in the trace",
  "Contract programs are arbitrary; tests try a few, an attacker writes any.",
  ["src/vm/wasm/wasm_context.cpp:38-80", "src/vm/wasm/wasm_context.cpp:116-197", "src/tx/universaltx.cpp:52-186"])

p("A signer's authority is used only at the contract it was given to",
  "An action that carries a signer's authority is one of the actions the signer signed.",
  "all contract programs, states and transactions",
  "Depends on which contracts notify which others, and on what the notified programs do.",
  ["src/vm/wasm/wasm_context.cpp:38-80", "src/vm/wasm/wasm_context.cpp:206-218"])

p("Contracts cannot take coins of users",
  "A universal transaction lowers no balance of a user account (no contract at any of its numbers) unless one of the signed actions addressed to the bank contract carries that user's authority; in particular not if the user did not sign.",
  "all contract programs, transactions, users, coins and balance kinds",
  "The attacker chooses the programs, the number of nested calls and notifications.",
  ["src/vm/wasm/modules/wasm_native_bank_module.hpp:127-383", "src/vm/wasm/modules/wasm_native_commons.hpp:79-153", "src/vm/wasm/wasm_context.cpp:38-80"])

p("Contracts neither create nor destroy coins",
  "A universal transaction changes the total of a native coin only by minting the block rewards that are due, each exactly once; the total of every issued asset equals its recorded supply afterwards.",
  "all contract programs and transactions, totals below 2^64",
  "An invariant over arbitrary programs and nesting.",
  ["src/vm/wasm/modules/wasm_native_bank_module.hpp:127-383", "src/vm/wasm/modules/wasm_native_voting_module.hpp:135-191", "src/vm/wasm/modules/wasm_native_module.hpp:79-153"])

p("A contract is changed by its maintainer only",
  "If a universal transaction changes the code, ABI or maintainer of a contract, the contract's maintainer signed the transaction (or is a contract that asked for it); contracts do not disappear; a contract marked as not upgradable keeps its code, and one without a maintainer stays as it is.",
  "all contract programs, transactions, contracts",
  "Any path through nested calls could reach the system contract.",
  ["src/vm/wasm/modules/wasm_native_module.hpp:79-190", "src/entities/contract.h:84-137", "src/tx/universaltx.cpp:52-186"])

p("The data of a contract is written by its own code only, and there is one copy of it",
  "If an entry in a contract's storage changes, that contract's program ran; a contract sees the same storage under every number by which it can be called.",
  "all contract programs, transactions, contracts, keys and numbers",
  "Numbers are 64-bit, identifiers 48-bit: the collision shows only for numbers nobody uses in tests.",
  ["src/vm/wasm/wasm_interface.cpp:275-355", "src/vm/wasm/wasm_context.hpp:83-113", "src/entities/id.cpp:73-76", "src/entities/id.h:45-103"])

p("The work of a universal transaction is bounded and paid for",
  "An accepted universal transaction executes at most 60056 receivers, nested at most four deep, and pays at least 100 times the fuel rate for each; endless recursion fails.",
  "all contract programs, transactions and states",
  "Bounds hold for every program, including programs that call each other and notify each other.",
  ["src/tx/universaltx.cpp:188-372", "src/vm/wasm/wasm_context.cpp:82-146", "src/vm/wasm/wasm_constants.hpp"])

p("Votes and minted rewards are in the hands of the voting contract, and the ranking agrees with the votes",
  "Votes change, and block rewards are minted, only by a call that the program of the configured voting contract issues; afterwards every account with votes is ranked exactly once, with its votes.",
  "all contract programs, transactions, candidates and numbers of votes",
  "Any program may try; agreement of two tables is an invariant over all calls.",
  ["src/vm/wasm/modules/wasm_native_voting_module.hpp:72-202", "src/persistence/delegatedb.cpp"])

p("The outcome of a universal transaction does not depend on the speed of the node",
  "All nodes that execute the same universal transaction in the same state reach the same verdict.",
  "all transactions, states and execution times",
  "Tests run on one machine.",
  ["src/tx/universaltx.cpp:245-330", "src/vm/wasm/wasm_constants.hpp"])

p("Numbers identify accounts",
  "After a universal transaction, the number recorded in an account still leads to that account; no two accounts share a number.",
  "all contract programs, transactions and states",
  "Registration and deployment assign numbers independently; they collide only when both happen in one transaction.",
  ["src/tx/tx.cpp:182-215", "src/tx/tx.cpp:314-352", "src/vm/wasm/modules/wasm_native_module.hpp:79-153", "src/persistence/accountdb.cpp:91-93"])
p("A transaction of any type survives the network unchanged",
  "Writing a transaction of any of the 36 types and reading the bytes gives back the same type and the same value of every member, whatever bytes follow; the announced size is the number of bytes written; nothing a class declares is left out.",
  "all transaction types and all values of all members (nested conditions, proposals, operator updates, contracts and price maps included)",
  "Each type has its own list of members, with nested alternatives; tests round-trip a few objects of a few types.",
  ["src/commons/serialize.h:205-900", "src/tx/txserializer.h:33-335", "src/tx/tx.h:118-260", "src/entities/utxo.h:244-433", "src/entities/proposal.h:108-919", "src/entities/contract.h:33-128"])

p("What is signed determines the transaction",
  "Two transactions with the same bytes under the signature (and thus the same id) have the same type and agree in every member other than signatures.",
  "all pairs of transactions of all types",
  "It is a statement about all pairs of transactions; one forgotten member in one class breaks it.",
  ["src/tx/tx.h:100-235", "src/tx/cdptx.h:198-211", "src/tx/universaltx.h:48-68", "src/tx/dextx.h:340-438"])

p("A block hash identifies a block",
  "Two well-formed blocks with the same hash are the same block; blocks and headers survive the network unchanged.",
  "all pairs of blocks with any transactions, for hash functions without collisions",
  "Pairs of different blocks with equal hash have to be excluded, not sampled.",
  ["src/persistence/block.h:58-157", "src/persistence/block.cpp:17-100", "src/main.cpp:1819-1880"])

p("A received transaction can be checked and passed on",
  "A transaction that was read from the network is relayed as the same transaction, and checking it does not crash the node.",
  "all byte strings received",
  "Malformed input is unbounded; the harmful strings are special.",
  ["src/commons/serialize.h:308-410", "src/tx/proposaltx.cpp:51-66", "src/entities/proposal.h:720-919"])

p("What is stored is read back",
  "A record of any table of the state database, the undo data of a block and the block file records are read back from their stored bytes as they were written; the announced size is the number of bytes.",
  "all tables and all values",
  "Every table has its own record type, with maps, sets, optional parts and alternatives; a single wrong width corrupts state only for large values.",
  ["src/persistence/accountdb.h:101-103", "src/entities/account.h:79-167", "src/entities/dexorder.h:88-206", "src/entities/cdp.h:40-181", "src/persistence/blockundo.h:18-55", "src/persistence/disk.h:13-105", "src/commons/serialize.h:690-930"])

p("The active chain is a sound chain from genesis",
  "Whatever blocks arrive in whatever order, every block of the active chain names its predecessor, keeps the rules for height, time and fuel rate and passed full verification on exactly the chain below it; blocks that are final at the time are not removed.",
  "all histories of delivered blocks, all rules that judge blocks, all moments of flushing and finality",
  "Blocks of side branches and orphans are indexed before they are executed and verified with cached states; wrong mixtures need long adversarial orders of arrival.",
  ["src/main.cpp:2106-2208", "src/main.cpp:1882-1985", "src/main.cpp:1700-1817", "src/main.cpp:1344-1588"])

p("The node follows the best sound chain",
  "After a block changed what is known, no known sound chain is longer than the active one, or as long and earlier to arrive, unless a final block holds the active chain.",
  "all histories of delivered blocks with any mixture of sound and unsound branches",
  "Choice, failed connection, marking of descendants and retry interact over unboundedly many branches.",
  ["src/main.cpp:1430-1479", "src/main.cpp:1481-1588", "src/persistence/block.h:308-326"])

p("No delivered block stops the node",
  "Processing a delivered block never fails an assertion, dereferences null, loops for ever or shuts the node down.",
  "all histories of delivered blocks",
  "A single special block is enough; termination of choosing a chain and of resolving orphans is about all states.",
  ["src/main.cpp:1882-1985", "src/main.cpp:1590-1647", "src/persistence/cachewrapper.cpp:323-335", "src/main.cpp:43-45"])

p("A good block is taken",
  "A block that is sound on a known sound chain within the fork limit is known after delivery, and the active chain is then at least as long as the chain it ends.",
  "all histories before the delivery",
  "An earlier delivery can spoil a later one; the spoiling block must be constructed.",
  ["src/main.cpp:1819-1880", "src/main.cpp:1882-1900", "src/main.cpp:2106-2125", "src/persistence/block.cpp:21-25"])

p("The pool of orphan blocks is bounded, consistent and favours near blocks",
  "At most 751 orphans are kept, the three collections agree, no orphan waits for a known block, and a full pool makes room for an orphan nearer than all stored ones.",
  "all histories of delivered blocks",
  "Consistency of three collections with different keys under all orders of arrival; the failing heights lie beyond 2^31.",
  ["src/main.cpp:86-97", "src/main.cpp:373-399", "src/main.cpp:2130-2201", "src/config/const.h:161"])
p("A transaction works on one copy of every account",
  "Executing a transaction, which loads accounts on demand, changes them in memory and saves them at the end, has exactly the effect of writing each change to the database at once, whichever ids (number, key id, public key) are used for an account; no change is lost and the database's references between numbers, keys and accounts stay right.",
  "all sequences of account operations, ids, databases in order",
  "Aliasing shows only when one account is reached under several names in one transaction.",
  ["src/tx/tx.cpp:182-222", "src/tx/tx.cpp:280-352", "src/tx/contracttx.cpp:78-91", "src/tx/contracttx.cpp:264-277", "src/tx/coinminttx.cpp:15-48", "src/tx/cointransfertx.cpp:29-52", "src/persistence/accountdb.cpp:91-130", "src/entities/account.cpp:559-569"])
p("An account does only what its permissions allow",
  "A transaction that passes the check has a sender with the permission for its kind; an account whose permissions were cleared can do nothing more than register its key or clear its permissions again.",
  "all transactions, accounts and permission sets, versions from 2",
  "A table of thirty kinds times 2^64 permission sets, and authority can come in indirectly.",
  ["src/tx/tx.h:45-79", "src/tx/tx.cpp:90-180", "src/entities/account.h:31-43", "src/tx/universaltx.cpp:101-143", "src/tx/accountpermscleartx.cpp:18-25"])
p("Checking a transaction throws nothing",
  "Whenever a transaction passes the common check, the rest of the code finds the kind of sender id it asks for; no transaction in a block can raise an exception this way (which would shut the node down).",
  "all transactions",
  "Needs the one kind of transaction whose permitted senders and expected sender disagree.",
  ["src/tx/tx.cpp:138-149", "src/tx/assettx.cpp:139", "src/tx/assettx.cpp:332", "src/tx/pricefeedtx.cpp:66", "src/tx/dextx.cpp:1077", "src/tx/proposaltx.cpp:129-160", "src/entities/id.h:160-180"])
p("The sender's key signed the transaction",
  "From the second protocol version on, every transaction of an account that passes the check carries a signature by the key that the account's address is derived from; so does every other account whose authority a universal transaction has.",
  "all transactions, databases in order",
  "Sender ids of four kinds lead to the key by different routes.",
  ["src/tx/tx.cpp:104-129", "src/tx/universaltx.cpp:77-143"])
p("A producer's own block is accepted",
  "The block that a producer makes from its pool passes the checks of every node with the same tip: size, number of median and reward transactions, distinct ids, heights, fuel, fuel fees of the header and rewards.",
  "all histories of the pool (offers, blocks, reorganisations), all transactions, all orders of packing, running out of time at any point",
  "Producer and validator are separate code; they differ in the height, in strictness of limits and in what counts as size, and only transactions at the edges show it.",
  ["src/miner/miner.cpp:431-573", "src/miner/miner.cpp:575-600", "src/main.cpp:1050-1130", "src/main.cpp:1819-1870", "src/tx/tx.cpp:78-84", "src/tx/txmempool.cpp:91-131"])
p("The pool can follow the tip",
  "At all times the pool holds distinct, relayable, unconfirmed transactions that are valid at the next height and can all be executed one after another on the state of the tip. What fits is taken in, what does not is refused, and a transaction leaves only if it is confirmed or can no longer be executed.",
  "all sequences of offered transactions, connected blocks and reorganisations",
  "Depends on the whole history of the pool and on the order of transaction ids.",
  ["src/main.cpp:236-305", "src/tx/txmempool.cpp:46-153", "src/main.cpp:1376-1386", "src/main.cpp:1427-1429"])
p("Better paying transactions come first",
  "Producers go through price feeds, the price median and then the other transactions by falling fee per kilobyte, forgetting none; the forced settlement of interest, which has the highest ordinary priority, is not displaced by ordinary transactions.",
  "all pools, all shapes of the search tree",
  "The comparison is not an order, so that the result depends on the order of insertion and on the inner workings of the set.",
  ["src/miner/miner.h:42-62", "src/miner/miner.cpp:91-113", "src/miner/miner.cpp:455-475", "src/tx/tx.h:177-179", "src/config/const.h:141-153"])
p("A peer that asks is told the pool",
  "The answer to a mempool message lists the transactions of the pool.",
  "all pools",
  "No answer looks the same as an empty pool.",
  ["src/p2p/chainmessage.cpp:728-750", "src/tx/txmempool.cpp:81-89", "src/tx/txmempool.cpp:174-180"])
p("Names and numbers stand for each other",
  "A text is accepted as a name exactly when it has at most thirteen letters of the alphabet _ 1-5 a-z, the thirteenth among the first sixteen. Every 64-bit number has a text that reads back as the number, two texts stand for the same number exactly when they agree up to trailing underscores, and the compile-time macro gives the same numbers as the run-time reader and accepts the same texts.",
  "all texts and all 64-bit numbers",
  "Letters sit at different bit positions in every place, the thirteenth in four bits; a slip shows for a few of 2^64 names.",
  ["src/vm/wasm/types/name.hpp:12-40", "src/vm/wasm/types/name.hpp:92-173", "src/vm/wasm/types/name.hpp:225-261"])
p("Variable length integers have one encoding and are read safely",
  "A 32-bit number written to a stream is read back with the rest of the stream untouched. Every number has exactly one accepted encoding, and no bytes lead the reader into undefined behaviour.",
  "all 32-bit numbers, signed and unsigned, and all byte sequences",
  "Writers only produce the short form; the long forms and overlong inputs come from other people's programs.",
  ["src/vm/wasm/datastream.hpp:1069-1144"])
p("Packing loses nothing, and reading needs no more memory than the data",
  "For every type that can be packed: each value is read back from its bytes with the rest of the stream untouched, different values have different bytes, no value's bytes begin another's, and bytes cut short are refused. Reading never asks for more elements than there are bytes.",
  "all types built from numbers, flags, texts, vectors, optionals and tuples, all their values and all byte sequences",
  "The types nest without bound, and the memory asked for by hostile bytes is not visible in the result.",
  ["src/vm/wasm/datastream.hpp:62-67", "src/vm/wasm/datastream.hpp:445-504", "src/vm/wasm/datastream.hpp:651-675", "src/vm/wasm/datastream.hpp:793-876", "src/vm/wasm/datastream.hpp:979-1058"])
p("Amounts of contract assets are exact",
  "Sums, differences, products and quotients of valid amounts are exact or refused. An amount or symbol written as text is read back as the same amount or symbol, and other texts are refused.",
  "all amounts and symbols, all texts",
  "Wrapping needs amounts near the maximum; rounding, signs and trailing characters need texts nobody types in tests.",
  ["src/vm/wasm/types/asset.hpp:49-222", "src/vm/wasm/types/asset.hpp:356-464", "src/vm/wasm/types/symbol.hpp:27-67", "src/vm/wasm/types/symbol.hpp:114-213", "src/vm/wasm/types/symbol.hpp:338-407"])
p("An accepted contract interface can be read to the end",
  "An interface is accepted only if its type definitions, bases and struct members form no circle, all types it mentions are known, and no well-formed interface is refused; so reading data of any of its types ends within a depth that does not depend on the data.",
  "all interface descriptions and all data",
  "A circle is found by an argument about the whole graph; a test sees single interfaces.",
  ["src/vm/wasm/abi_serializer.cpp:118-161", "src/vm/wasm/abi_serializer.cpp:203-253", "src/vm/wasm/abi_serializer.cpp:511-639", "src/vm/wasm/abi_serializer.hpp:235-302"])
p("Action data and JSON correspond",
  "For every interface and every type in it: JSON that is packed is read back in its canonical form (declared fields in order, the base's fields first), with the rest of the data untouched, and everything that can be read can be packed.",
  "all interfaces, types, JSON values and built-in conversions that undo each other",
  "Types nest without bound, and the two directions are separate functions.",
  ["src/vm/wasm/abi_serializer.cpp:284-463"])
p("Account numbers as text are unique",
  "The text of an account number reads back as the number, and no other text stands for it.",
  "all account numbers and texts",
  "Only ill-formed texts collide, and they look like typing errors.",
  ["src/vm/wasm/types/regid.hpp:69-108"])
p("Every exchange operator is found by its owner, and every account owns at most one",
  "After any registrations, changes, transfers and governance switches, the search by owner finds exactly the operators with that owner (operator 0, which may exist by default only, included), and no account owns two.",
  "all histories of operator transactions from an empty register",
  "The index is a second table changed by three functions, with a special case for an operator that is not stored.",
  ["src/persistence/dexdb.cpp:125-201", "src/tx/dexoperatortx.cpp:148-212", "src/tx/dexoperatortx.cpp:380-430"])
p("Only its owner changes an exchange operator, and only governance switches it",
  "No operator ever disappears. Its record changes only by a transaction of its owner, in the one field named and to the value given, or by a governance switch, which changes nothing else and never concerns operator 0. An account loses an operator only by giving it away.",
  "all histories of operator transactions and all operators",
  "Needs every transaction type on every state; the exception needs 2^32 registrations.",
  ["src/tx/dexoperatortx.cpp:305-360", "src/tx/dexoperatortx.cpp:396-430", "src/persistence/dexdb.cpp:95-108", "src/persistence/dexdb.cpp:188-201", "src/entities/proposal.cpp:434-479"])
p("A new exchange operator gets a fresh number and takes no orders until governance enables it",
  "A registration takes the next number, which no operator had, and stores the terms as asked, inactive. Whenever an operator other than 0 accepts orders, governance has enabled it and not disabled it since.",
  "all histories of operator transactions",
  "That nothing else sets the flag is a statement about all other transactions.",
  ["src/tx/dexoperatortx.cpp:185-212", "src/persistence/dexdb.cpp:95-108", "src/tx/dextx.cpp:364-375", "src/entities/proposal.cpp:458-479"])
p("The terms of exchange operators stay within their bounds",
  "Fee ratios are at most one half, names at most 32 and memos at most 100 bytes, lists of partner operators have at most 500 different entries, each of them another existing operator, and the open mode is public or private.",
  "all histories of operator transactions and all operators",
  "Two transactions check separately; numbers beyond 2^32 behave like small ones in some places.",
  ["src/tx/dexoperatortx.cpp:107-165", "src/tx/dexoperatortx.cpp:214-303"])
p("An account without exchange operator can register one, and gets one only by its own will",
  "An account that owns no operator can register with terms within the bounds if it pays the fee. An account becomes owner of an operator only if it takes part.",
  "all histories of operator transactions and all accounts",
  "Concerns what others can do before the account acts.",
  ["src/tx/dexoperatortx.cpp:148-212", "src/tx/dexoperatortx.cpp:380-395"])
p("Messages are recovered from the byte stream however it is cut",
  "For every sequence of pieces read from the socket, the receive queue afterwards is determined by the bytes alone: it holds exactly the frames of the stream (24 header bytes and as many data bytes as the header announces), in order, and the beginning of the next frame; the stream is refused exactly if a header announces more than MAX_SIZE bytes; the receive loop always ends. What a sender wrote with BeginMessage/EndMessage comes out as the same commands and data in the same order.",
  "all byte streams, all ways to cut them into pieces, all message lists",
  "There are infinitely many streams and for each a number of cuts exponential in its length; errors occur only for cuts inside the header, at its end, or for empty data.",
  ["src/p2p/netmessage.cpp:8-46","src/p2p/node.cpp:210-232","src/p2p/node.h:402-457","src/p2p/protocol.cpp:54-107"])
p("Exactly the messages of this network are handled, once and in order",
  "For every interleaving of reading and message handling, the messages handed to ProcessMessage are exactly those carried by a leading part of the frames received: right start bytes, a command of printable characters padded with zeros, right checksum; each once and in order; other frames of the network are passed over. No frame at or after one with wrong start bytes is handled. Unless a handler closes the connection it is closed only because of wrong start bytes or an oversized header. If the peer sends well-formed messages only, the connection stays open and, once no complete message waits, all of them were handled. A waiting complete message is taken whenever there is room to send and no request is owed.",
  "all byte streams, all interleavings of reads and message loop passes, all messages",
  "The interleavings of two threads' steps and the contents of the frames are unbounded.",
  ["src/p2p/processmessage.hpp:152-261","src/p2p/protocol.cpp:54-107","src/net.cpp:678-706","src/net.cpp:1203-1217"])
p("Queued messages are written to the socket byte for byte",
  "For every sequence of messages queued and every pattern of partial writes: no assertion of SocketSendData fails; the bytes written are a beginning of the concatenated frames in the order queued; nSendSize is the size of the frames not yet finished, and when it is zero everything was written. If the socket takes at least one byte, writing advances; if it takes none, nothing changes.",
  "all message sequences, all answers of the socket",
  "Partial writes can split any message anywhere, several messages can finish in one call, and the assertions abort the node.",
  ["src/p2p/node.cpp:61-101","src/p2p/node.h:402-457"])
p("Receive memory is bounded and connections do not stand still",
  "Whatever a peer sends, the memory counted for its receive queue never exceeds max(flood limit, MAX_SIZE + 24) + 65536 + MAX_SIZE + 24 bytes, which is below 68 million by default, so the 32-bit sum does not wrap. On every open connection there is something to do: bytes to write, or the loop waits for data, or a complete message waits, there is room to send, and a pass of the message loop takes it.",
  "all byte streams, all reachable connection states",
  "The bound and the absence of a standstill depend on the interplay of three queues over unbounded histories.",
  ["src/net.cpp:575-602","src/p2p/node.h:295-300","src/p2p/netmessage.cpp:8-46"])
p("A peer makes the node hold only memory it has sent bytes for",
  "The memory held for a peer's messages is never more than the bytes received from it.",
  "all byte streams, all reachable connection states",
  "The excess appears only for particular headers and is invisible unless memory is measured before the data arrive.",
  ["src/p2p/netmessage.cpp:8-46","src/p2p/processmessage.hpp:152-261"])

p("Addresses and keys survive base 58 text, and one text means one key",
  "For all byte strings: EncodeBase58 never fails its assertion, uses only the 58 letters and digits, and DecodeBase58 of the result gives the same bytes. For all texts: DecodeBase58 never fails its assertion, accepts exactly texts that are the encoding of some bytes between spaces, and returns these bytes. With checksum and version byte: an address written for a key is read as this key, different keys have different addresses, and a text read as a key is the address of this key up to surrounding spaces.",
  "all byte strings, all texts, all checksum functions of four bytes",
  "The buffers are sized by the approximations log 256/log 58 = 138/100 and 733/1000; whether the carry can run over is a statement about all lengths.",
  ["src/commons/base58.cpp:20-190"])
p("Data and hashes survive hexadecimal text, and one text means one value",
  "For all byte strings HexStr read by ParseHex or RPC_PARAM::ParseHex gives the same bytes; a hash written by GetHex is read by ParseHashV as the same hash; what is accepted is the text of the value returned, up to case, surrounding spaces and 0x.",
  "all byte strings, all texts",
  "Wrong texts are infinitely many, and a lenient parser is found only by the particular text it misreads.",
  ["src/commons/util/util.cpp:188-233","src/commons/util/util.h:222-235","src/commons/uint256.cpp:18-54","src/rpc/core/rpcserver.cpp:123-135","src/rpc/core/rpccommons.cpp:727-760"])
p("The amount typed is the amount used",
  "If an amount argument is accepted, it is of one of the forms amount, amount:unit, token:amount, token:amount:unit, and the token and number of smallest units used are exactly those it says (the caller's default token if it names none); more decimals than the unit has places are refused; well-formed texts are accepted; whole JSON numbers are taken as they are.",
  "all texts, all default tokens, all whole JSON numbers",
  "The defects need amounts beyond 2^52 or 2^63, or a particular combination of form and default token.",
  ["src/rpc/core/rpccommons.cpp:26-184","src/rpc/core/rpccommons.cpp:413-431","src/rpc/core/rpcserver.cpp:104-111","src/config/const.h:97-124"])
p("Base 64 text means one byte string",
  "For all byte strings DecodeBase64 of EncodeBase64 gives the same bytes and finds the text valid; different data have different texts; a text found valid is the text of the data returned.",
  "all byte strings, all texts",
  "The state machines carry bits over from byte to byte; leniency shows only for particular endings.",
  ["src/commons/util/util.cpp:235-362"])
p("Blocks and undo data stay where they were written",
  "For every order of storing blocks, writing undo data, flushing the cache, stopping or crashing between operations, crashes between the writing of a block and of its index record, and failures for lack of disk space: every block of the index is read back from its position byte by byte, and so are the undo data with their checksum; a stored block is in the index, undo data written are found, positions never change; block files stay below 128 MiB if blocks do.",
  "all sequences of operations, all block and undo sizes",
  "Overwriting needs a particular mixture of restarts, stale file numbers in the database, truncation when leaving a file and late undo data for old files.",
  ["src/main.cpp:689-747","src/main.cpp:1648-1698","src/main.cpp:1937-1951","src/main.cpp:1206-1242","src/persistence/block.cpp:136-186","src/persistence/blockundo.cpp:43-100","src/commons/util/util.cpp:751-820"])
p("Rebuilding the index finds every block and endangers none",
  "Starting with -reindex on block files of a node gives an index with exactly the blocks in the files, each at its position, and blocks stored later do not damage them.",
  "all contents of block files of a node, all later operations",
  "Needs a crash in the short time between two writes, a later reindex and then new blocks; the damage shows only when the overwritten block is read.",
  ["src/main.cpp:1648-1698","src/main.cpp:2489-2560","src/init.cpp:344-366"])
p("No key of the wallet is lost",
  "From a new wallet by any sequence of getnewaddr, importprivkey, importwallet, encryptwallet, walletpassphrase, walletlock, walletpassphrasechange, dropprivkey, dropminermainkeys, restarts, and crashes inside AddKey: the wallet file can always be read again; a main key that was added can be used (with the passphrase of the time) from then on, until the user removes it.",
  "all sequences of commands, restarts and crashes; all keys and passphrases",
  "Loss needs a particular order of import, encryption, crash and restart, and is noticed only when the key is needed.",
  ["src/wallet/wallet.cpp:35-106","src/wallet/wallet.cpp:271-372","src/wallet/wallet.cpp:529-618","src/wallet/crypter.cpp:107-310","src/wallet/walletdb.cpp:31-200","src/entities/keystore.cpp:69-160","src/rpc/rpcdump.cpp:84-273","src/rpc/rpcwallet.cpp:40-90"])
p("Keys of an encrypted wallet are nowhere in the clear",
  "A locked wallet gives no main key; encryption, locking and a restart leave the wallet locked; no main key stands unencrypted in the file of an encrypted wallet, nor in memory while it is locked; dropminermainkeys leaves no main key.",
  "all sequences of commands, restarts and crashes; all keys and passphrases",
  "Tests look at what commands answer, not at what is left in the file or in memory after a refused or interrupted command.",
  ["src/wallet/wallet.cpp:271-358","src/wallet/wallet.cpp:529-618","src/wallet/crypter.cpp:127-310","src/wallet/walletdb.cpp:31-200","src/rpc/rpcdump.cpp:84-273","src/rpc/rpcwallet.cpp:499-690"])
p("The current passphrase and no other opens the wallet",
  "walletpassphrase succeeds exactly with the passphrase last set by encryptwallet or walletpassphrasechange, and then every key of the wallet can be used; walletpassphrasechange succeeds exactly with the current passphrase, keeps all keys, and if refused changes nothing; an encrypted wallet stays encrypted.",
  "all sequences of commands, restarts and crashes; all passphrases",
  "All passphrases and all histories cannot be tried; a wrong entry accepted or a right one refused after some history would be seen only by chance.",
  ["src/wallet/wallet.cpp:35-106","src/wallet/wallet.cpp:271-358","src/wallet/crypter.cpp:14-44","src/wallet/crypter.cpp:127-176","src/rpc/rpcwallet.cpp:499-690"])
p("The result of a streaming hash depends on the bytes alone",
  "For each of the streaming hash classes, the result after any sequence of writes is the standard digest of the bytes in a row: the run of the compression function over the blocks of the data followed by the standard padding (a one bit, fewest zeros, bit length). How the data is cut into writes, what the buffer's memory held before, and earlier uses ended by a reset do not matter. The double hash of an object written in pieces, or of two or three ranges, is the digest of the digest of the bytes in a row.",
  "All byte strings shorter than 2^61 bytes, all cuts into pieces, all contents of the uninitialised buffer, all compression functions, all reuses after reset.",
  "Tests feed a few vectors in a few cuts; an error in the branch that fills the buffer shows only for particular residues of earlier and new lengths, and dependence on uninitialised memory shows only by luck.",
  ["src/crypto/sha256.cpp:639-693", "src/crypto/sha1.cpp:149-199", "src/crypto/sha512.cpp:155-207", "src/crypto/ripemd160.cpp:242-292", "src/crypto/hash.h:20-121"])
p("The keyed hash is the one of the standard",
  "The keyed hash (HMAC with SHA-256 or SHA-512), as used for deriving child keys, equals H((K xor opad) || H((K xor ipad) || text)), where K is the key filled up with zeros to a block, or its digest filled up when the key is longer than a block, however the text is cut into writes.",
  "All keys of any length below 2^61 bytes, all texts and cuts, all compression functions with outputs no longer than a block.",
  "Keys of test vectors seldom sit at the boundary between short and long, and text in pieces is not tried; a digest agreeing on vectors can still differ for keys of exactly one block.",
  ["src/crypto/hmac_sha256.cpp:9-34", "src/crypto/hmac_sha512.cpp:9-34", "src/crypto/hash.cpp:65-96"])
p("Checked arithmetic gives the exact result or refuses",
  "Addition, subtraction, multiplication and division of the checked integers return the mathematical result exactly when it fits into 64 bits (division: rounded towards zero), and otherwise refuse; nothing wraps around and nothing that fits is refused. The same holds for unsigned addition and subtraction.",
  "All pairs of 64-bit numbers.",
  "Every operation has 2^128 pairs of operands; the multiplication works with 32-bit halves and signs, whose errors show for a few operands only.",
  ["src/commons/SafeInt3.hpp:1977-2038", "src/commons/SafeInt3.hpp:2408-2460", "src/commons/SafeInt3.hpp:1116-1124"])
p("Numbers of contracts survive the way through bytes",
  "A contract that turns a number into bytes and the bytes back into a number gets the number it had; bytes turned into a number and back are the same bytes.",
  "All 64-bit numbers, all strings of four and eight bytes.",
  "Tests use small positive numbers; the loss concerns negative and large ones.",
  ["src/vm/luavm/lmylib.cpp:1030-1090"])
p("The data of a contract is a map of its own",
  "Whatever contracts write, modify, delete and read, in any order and interleaving, each gets what a map of its own would give: the value last written under the key, nothing if there is none or it was deleted; another contract reads the same value and cannot change it.",
  "All sequences of calls of all contracts within the limits of lengths, all initial data; that others' data is untouched: all calls with any arguments.",
  "Tests use a few keys of a few letters and one contract.",
  ["src/vm/luavm/lmylib.cpp:1341-1520", "src/vm/luavm/lmylib.cpp:1640-1690", "src/vm/wasm/wasm_interface.cpp:275-357", "src/persistence/contractdb.cpp:56-78"])
p("No contract can stop the node by the key it uses",
  "A call for contract data, with whatever key, ends with a result or a failed transaction; it never ends the program.",
  "All calls with all arguments of all contracts, all data.",
  "The limit is reached only with keys of more than 500 bytes, which no test uses.",
  ["src/vm/wasm/wasm_interface.cpp:275-357", "src/persistence/dbconf.h:229-285", "src/vm/luavm/lmylib.cpp:183-246"])
p("What a contract is told about the chain depends on the ancestors of its block alone",
  "A contract that asks for the hash of an earlier block or the height at which a transaction was confirmed gets the answer for the chain of ancestors of the block that contains the call, on every node.",
  "All chains, branches, heights and transactions, all node settings.",
  "Tests execute blocks on one node on one chain; branches executed while another one is active are rare, and a different answer splits the network.",
  ["src/vm/luavm/lmylib.cpp:1181-1250", "src/main.cpp:307-324", "src/main.cpp:875-881", "src/main.cpp:1790-1800"])
p("Block download keeps its books straight",
  "Whatever peers connect, announce, send and disconnect, in whatever order: the node never uses an invalid iterator or the state of a peer that has gone; each block is to be fetched from at most one peer, once; at most 128 blocks are in flight from a peer; a peer that has gone has none; an announced block is assigned to a peer that is there, and to the announcing one when nobody fetches it or its time is over; blocks are asked for in the order of the queue and stay with the peer until they come, the peer goes or their time is over; a block that has come is assigned to nobody.",
  "All sequences of connects, disconnects, announcements, sendings and blocks, any number of peers and blocks, any times.",
  "The counters, lists and maps must agree after every interleaving of the events of many peers; a wrong one shows as a crash or a block nobody fetches long after.",
  ["src/p2p/chainmessage.cpp:33-71", "src/p2p/chainmessage.cpp:191-238", "src/p2p/node.cpp:31-59", "src/p2p/sendmessage.hpp:213-227"])
p("getblocks and getheaders lead a peer to the tip",
  "The answer to getblocks is the inventory of the blocks after the fork point up to the stop block, at most 500, whatever was announced before on the connection; when 500 were announced the node remembers the last one and announces the tip when that one is fetched; a peer that asks again reaches the tip in rounds of 500. The answer to getheaders is the headers after the fork point up to and with the stop block, at most 2000.",
  "All chains, fork points and stop blocks, any number of rounds, any state of the inventory of the peer.",
  "Tests use chains shorter than 500 blocks and new connections.",
  ["src/p2p/chainmessage.cpp:510-600", "src/p2p/chainmessage.cpp:120-135", "src/p2p/node.h:340-353"])
p("Every request for data is answered once and in order",
  "The requests of getdata are answered in their order, each once, however the sending pauses when the buffer is full; what is not here is reported as not found.",
  "All lists of requests, all contents of the node, all sequences of pauses.",
  "Pauses occur only with a full send buffer, at any position of the list.",
  ["src/p2p/chainmessage.cpp:73-177"])
p("Inventory is announced completely and once",
  "What is announced to a peer was to be announced, in that order; everything to be announced is announced, was known to the peer, or waits; only transactions wait, and none when it is the peer's turn. Something that is not announced by force is announced at most once to a peer and never to one that announced it, as long as the set of known things has room.",
  "All sequences of pushes, announcements by the peer and sendings, all random choices, all sizes of the set.",
  "The random delay of transactions makes runs differ; doubling appears only in long runs.",
  ["src/p2p/node.h:340-353", "src/p2p/sendmessage.hpp:151-200"])
p("A transaction is asked for soon and not too often",
  "Requests for one transaction are at least two minutes apart; a transaction not asked for in the last minutes is asked for at once, and no peer can delay the request to another one by more than some minutes.",
  "All sequences of announcements by all peers at all times.",
  "It takes many announcements of the same transaction by one peer and the clock of days.",
  ["src/p2p/node.h:371-401", "src/p2p/chainmessage.cpp:640-670"])
p("Misbehaving peers are banned, and for the time set",
  "A peer is disconnected and its address banned exactly when its penalties reach the limit and it is not local; the ban lasts for the set time from then, or as long as an earlier ban; no other address is concerned and no ban is ever shortened.",
  "All sequences of penalties, limits, times and tables of bans.",
  "Bans last a day; the exact moment of the end and the combination of bans are not tested.",
  ["src/main.cpp:479-498", "src/p2p/sendmessage.hpp:133-145", "src/p2p/node.cpp:183-206"])
p("Filters of light clients miss nothing",
  "What a peer has put into its filter is matched from then on until it loads or clears a filter; no filter message makes the node divide by zero or write outside the filter; filters beyond the limits are refused and punished; transactions that match are announced to the peer.",
  "All sequences of filter messages with all contents, all hash functions.",
  "Empty filters, filters of full bytes and all combinations of messages; the failure for a bit depends on the element.",
  ["src/commons/bloom.cpp:28-155", "src/p2p/chainmessage.cpp:780-816", "src/net.cpp:1482-1512"])
p("The tables of known peer addresses stay consistent",
  "After any operations of the address manager no assert has failed; every known address has one entry, which is either in one tried bucket or in one to four new buckets; buckets have at most 64 entries; the number of addresses is the number of new and tried ones, at most 16384 and 4096; getaddr hands out different known addresses, 23 percent of all but at most 2500.",
  "All sequences of Add, Good, Attempt, Connected and GetAddr with all arguments, all random numbers, all hash functions.",
  "Full buckets need thousands of addresses, and each operation has random choices in it; asserts in the code would end the node.",
  ["src/p2p/addrman.cpp:83-387", "src/p2p/addrman.cpp:493-527", "src/p2p/addrman.h:125-247"])
p("Peer addresses are learned, promoted and forgotten as intended",
  "A routable address is known after Add, and an address that was known keeps its port, source and table; Add forgets at most one address, never a tried one, and the bucket makes room by a useless entry if there is one, else by the oldest of four; Good makes the address a tried one and forgets none; of the tried addresses inspected the least recently successful one makes room; each port of an address can be learned and tried.",
  "All states reached by any operations, all addresses, times and random numbers.",
  "Eviction happens in full buckets and depends on random numbers.",
  ["src/p2p/addrman.cpp:40-58", "src/p2p/addrman.cpp:128-387", "src/p2p/addrman.h:200-206"])
p("One group of peers can only reach part of the address tables",
  "Whatever the peers of one network group announce goes into 32 of the 256 new buckets; all other buckets, the tried ones and the addresses in them stay. Of the addresses of one group at most 256 are tried ones.",
  "All sequences of announcements of any length from the group, in all states reached by any operations, all hash functions.",
  "It is a statement about an attacker that sends any addresses for any time.",
  ["src/p2p/addrman.cpp:12-38", "src/p2p/addrman.cpp:206-368"])
p("256-bit arithmetic is exact modulo 2^256",
  "Sums, differences, negatives, increments, decrements and products of 256-bit numbers are those of the integers modulo 2^256; a quotient q of a and b satisfies q*b <= a < (q+1)*b, and division fails exactly for zero; shifts, bit operations, the number of bits and comparisons are those of the integers.",
  "All pairs of 256-bit numbers, all 32-bit factors, all shifts.",
  "Carries through all eight words and quotient bits at word borders are rare among 2^512 pairs.",
  ["src/commons/arith_uint256.h:24-290", "src/commons/arith_uint256.cpp:22-184"])
p("The compact form of a number keeps its leading bytes",
  "The 32 bits of the compact form mean mantissa * 256^(size-3), the sign is reported unless the number is zero, overflow exactly if the number needs more than 256 bits; writing a number never fails an assert, and reading it back gives the number without the bytes after its first two or three, off by at most one part in 2^15; writing what was read gives the same bits. The bytes of a number read back are the number.",
  "All 32-bit forms, all 256-bit numbers, both signs, all strings of 32 bytes.",
  "The flags depend on the size and mantissa together; the sign bit moves a byte when the mantissa has its highest bit set.",
  ["src/commons/arith_uint256.cpp:204-260"])
p("Peer addresses are grouped by who owns them",
  "Two addresses have the same group exactly if neither is routable, or both are and they share 16 bits of the IPv4 address (mapped, translated, 6to4 or Teredo alike), 4 bits of an onion, 36 bits at the tunnel provider he.net, or 32 bits elsewhere in IPv6.",
  "All pairs of 128-bit addresses.",
  "The classes overlap and are tested in order; most addresses of a random test are plain IPv6.",
  ["src/netbase.cpp:606-665", "src/netbase.cpp:757-818"])
p("A subnet contains exactly the addresses with its prefix",
  "A subnet of n bits is valid exactly if n is between 0 and the width of the address (32 for IPv4, else 128), and contains exactly the valid addresses with the same first n bits; one given by a mask contains the valid addresses equal under the mask; one of a single address contains only it. The text of a subnet of n bits says n; different subnets have different texts.",
  "All addresses, masks and numbers of bits.",
  "Bans are decided by it; there are 2^128 addresses for each subnet.",
  ["src/netbase.cpp:1035-1141"])
p("Addresses, services and subnets are classified and ordered consistently",
  "An address is valid and routable exactly outside fixed ranges; no multicast address is routable; onions are always routable. The order of services is total, agrees with equality and with the order of the 18-byte keys, which are different for different services. The order of subnets is total and agrees with equality.",
  "All addresses, ports and subnets.",
  "Ranges have borders at bits within bytes; maps with inconsistent orders lose entries.",
  ["src/netbase.cpp:606-714", "src/netbase.cpp:737-741", "src/netbase.cpp:973-1015", "src/netbase.cpp:1143-1149"])
p("Numbers in contract code are read as the standard says",
  "The LEB128 numbers in contract code (unsigned of 1, 7 and 32 bits, signed of 7, 32 and 64 bits) are accepted exactly when the WebAssembly standard accepts them, with the same value and the same number of bytes consumed, and every value fits its type.",
  "All byte sequences.",
  "The last byte has unused bits with rules of their own, sign extension depends on the length; a number read differently by two nodes is a fork.",
  ["src/vm/wasm/eos-vm/include/eosio/vm/leb128.hpp:13-70", "src/vm/wasm/eos-vm/include/eosio/vm/leb128.hpp:123-202"])
p("Integer instructions compute what the standard says on both engines",
  "For every straight-line program of integer instructions, the interpreter gives the result of the WebAssembly standard or traps where it traps; the machine code emitted for the program, run on a processor in any state with or without the bit-count instructions, ends with the same operand stack, or with a processor exception exactly there. So the engines agree with each other.",
  "All programs of constants, arithmetic, comparisons, counts, conversions, drop and select; all operands; all processor states.",
  "There are 2^128 operand pairs for each 64-bit instruction, and the special cases (division of the smallest number, counts of zero, shift amounts) are single points; a difference is a fork between nodes.",
  ["src/vm/wasm/eos-vm/include/eosio/vm/interpret_visitor.hpp:284-420", "src/vm/wasm/eos-vm/include/eosio/vm/interpret_visitor.hpp:538-775", "src/vm/wasm/eos-vm/include/eosio/vm/x86_64.hpp:666-850", "src/vm/wasm/eos-vm/include/eosio/vm/x86_64.hpp:1050-1345", "src/vm/wasm/eos-vm/include/eosio/vm/x86_64.hpp:2478-2499"])
p("A contract starts with its own memory and nothing else",
  "Whatever contracts ran before in the same context, a contract starts with exactly its declared pages accessible, holding its data segments (later ones win) and zeros elsewhere; no byte of another contract is visible; starting a parsed contract never takes the node down.",
  "All histories of starts, stores and growth, all declared memories and data segments.",
  "The memory is reused between contracts and page protection is skipped when sizes agree; leaks depend on the sequence of sizes.",
  ["src/vm/wasm/eos-vm/include/eosio/vm/allocator.hpp:373-446", "src/vm/wasm/eos-vm/include/eosio/vm/execution_context.hpp:62-86", "src/vm/wasm/eos-vm/include/eosio/vm/backend.hpp:63-71", "src/vm/wasm/eos-vm/include/eosio/vm/parser.hpp:220-229"])
p("Contract memory grows and is bounded as the standard says",
  "memory.grow returns the old size and adds zeroed pages when the declared maximum and the machine limit allow it, else returns -1 and changes nothing; existing bytes are kept. A load or store goes through exactly when base plus offset, without wrapping, plus width lies inside the memory.",
  "All reachable memories, all requests, all addresses, offsets and widths.",
  "Requests and addresses are 32-bit numbers; the accesses that matter lie at single bytes around page borders and at 2^32.",
  ["src/vm/wasm/eos-vm/include/eosio/vm/execution_context.hpp:34-47", "src/vm/wasm/eos-vm/include/eosio/vm/interpret_visitor.hpp:131-134", "src/vm/wasm/eos-vm/include/eosio/vm/x86_64.hpp:2186-2229"])
p("Multi-way branches of contracts reach the right target",
  "A `br_table` instruction of a contract continues at the case whose number is the index, or at the default if there is no such case, whatever the 32-bit index and however many cases there are; the operand stack there is the one the standard prescribes (values above the target's height removed, the result kept). The compiled code, which searches by comparisons patched in while the labels are read, and the interpreter, which reads a table, both do this. A contract whose table is cut short is refused, and compiling never ends the node.",
  "for every list of cases with their stack depths and results, every default, every index and every operand stack",
  "The compiler produces a different tree of comparisons for every table size and patches branch targets it emitted many cases earlier; tests try a few small tables, and never the declared size at which the counter wraps.",
  ["src/vm/wasm/eos-vm/include/eosio/vm/x86_64.hpp:226-294", "src/vm/wasm/eos-vm/include/eosio/vm/x86_64.hpp:2164-2183", "src/vm/wasm/eos-vm/include/eosio/vm/parser.hpp:486-500", "src/vm/wasm/eos-vm/include/eosio/vm/parser.hpp:600-622", "src/vm/wasm/eos-vm/include/eosio/vm/interpret_visitor.hpp:78-82", "src/vm/wasm/eos-vm/include/eosio/vm/execution_context.hpp:529-538"])
p("The operator can exclude a block and take that back",
  "After `invalidateblock` the active chain does not contain the block, obeys all rules, still contains the protected blocks if the block was not in it, and, if nothing is protected, is the best known valid chain without that block; it stays excluded. `reconsiderblock` with the descendants puts the node back on the chain it was on.",
  "for every history of delivered blocks (forks, orphans and invalid blocks included), every known block other than genesis and every set of protected blocks",
  "What happens depends on which branches are known, which chain was remembered as best and which blocks arrive later; tests exclude a block on a simple fork and look once.",
  ["src/main.cpp:544-622", "src/main.cpp:1435-1484", "src/main.cpp:1506-1588", "src/main.cpp:1785-1798", "src/rpc/rpcblockchain.cpp:337-415"])
p("Blocks and operator commands in any order leave a sound chain",
  "Whatever blocks arrive and whatever `invalidateblock` and `reconsiderblock` commands are given in between, the active chain is a linked chain from genesis whose blocks all passed `ConnectBlock` on exactly the chain below them. A block that may not be disconnected leaves the active chain only by an explicit `invalidateblock`, never by a block that arrives later or by `reconsiderblock`. Genesis is never left. No command, and no block other than one with a null previous hash or a producer without registration id, makes the node fail an assertion or loop for ever.",
  "for every sequence of delivered blocks and commands (any hash, genesis and unknown ones included), every verdict of the block checks and every set of protected blocks at each step",
  "The commands set and clear flags on chains that are valid, so the flags no longer say anything about validity; the choice of the chain, the kept states of side branches and the orphans have to stay sound for every interleaving, tests try one or two.",
  ["src/main.cpp:544-622", "src/main.cpp:1344-1398", "src/main.cpp:1435-1588", "src/main.cpp:1705-1830", "src/rpc/rpcblockchain.cpp:337-415"])
p("Base 32 is the standard coding", "EncodeBase32 gives the text RFC 4648 prescribes in small letters, padding included. DecodeBase32 gives back exactly the bytes and calls the text valid, so different byte strings have different texts. A text that DecodeBase32 calls valid is, up to capital letters, the text of the bytes it returns.", "for all byte strings of any length and all texts without zero bytes", "Each remainder modulo five uses its own branches and left over bits; there are infinitely many strings of each kind and the invalid texts are never tried.", ["src/commons/util/util.cpp:365-416", "src/commons/util/util.cpp:422-531"])
p("A Tor name stands for one address", "The printed name of a Tor address is read back as that address. Whatever name is accepted gives a Tor address, whose own name agrees with the given name in the first sixteen characters, in small letters. A name is accepted only if it is, up to capital letters, the printed name of the address.", "for all Tor addresses and all names without zero bytes", "Names that carry more text after the sixteen characters are not among the test cases; whether such a name is accepted depends on the decoder's state at its end.", ["src/netbase.cpp:570-582", "src/netbase.cpp:650", "src/netbase.cpp:716-718", "src/commons/util/util.cpp:422-531"])
p("The median filter resists a minority", "A CMedianFilter of size n holds the last n values it was given. Its median always exists, and if more than half of the held values lie between two bounds the median does too.", "for all sizes, initial values and sequences of values, all bounds", "The sequences and bounds are unlimited; the tests feed six values to one filter.", ["src/commons/util/util.h:290-328"])
p("Peers can not move the clock, but a wrong clock is reported", "Whatever times peers tell in their version messages, GetAdjustedTime is the system time and every message is handled without undefined behaviour. If at least five samples are there, their median is more than a second away from the clock and no peer is within a second, the user is warned.", "for all sequences of version messages from any addresses with any times", "The filter starts with a value of its own, which only leaves it after two hundred peers; no test connects that many. Extreme times are never sent by honest peers.", ["src/commons/util/util.cpp:850-905", "src/commons/util/util.h:290-328", "src/p2p/chainmessage.cpp:338"])
p("Relayed transactions are served for fifteen minutes", "The relay memory serves under a name only data relayed under that name, serves every transaction until fifteen minutes after it was relayed, and after a relay keeps nothing that was not relayed in the last fifteen minutes.", "for all sequences of relays at times that do not go back", "Needs relays of the same transaction at several distances in time mixed with others; the clock can not be driven in tests.", ["src/net.cpp:1482-1495", "src/p2p/chainmessage.cpp:138-148"])
p("Pings measure the peer", "A ping time that is reported is the positive time between a ping that went out and the answer with its nonce, with no other ping sent in between. After messages are sent to a peer a ping is outstanding or the last one is at most two minutes old. A peer that never gives a right answer to a ping is disconnected by the first check after twenty minutes.", "for all interleavings of sends, answers of any content, operator requests and checks at any times", "Needs interleavings of overlapping pings and wrong answers over twenty minutes.", ["src/p2p/sendmessage.hpp:29-68", "src/p2p/chainmessage.cpp:348-397", "src/net.cpp:759-763", "src/rpc/rpcnet.cpp:185"])
p("The own address told to a peer", "GetLocal tells one of the own addresses, and none is more reachable from the peer, or as reachable with a higher score. Only routable addresses outside the networks excluded by the operator are told, and without -discover only addresses the operator gave. A peer on Tor is told a Tor address if there is one; other peers are told a Tor address only if there is no other.", "for all sequences of AddLocal and SeenLocal, all limits, all peer addresses", "The choice depends on the classes of both addresses and on the votes of all earlier peers.", ["src/net.cpp:168-226", "src/p2p/node.cpp:106-125", "src/netbase.cpp:824-910"])
p("Saving and loading the known addresses loses none of them",
  "Take any state the address manager can reach by additions, connections, attempts, removals and time stamps. If it is saved and loaded with the same key and number of buckets, every new bucket has the same addresses in the same order with the same saved fields (address, port, time, source, last success, attempts), every tried bucket has the same addresses with the same saved fields, and no tried address is counted as lost. The limits applied while loading (four buckets for each new address, sixty-four addresses for each tried bucket) never drop anything.",
  "for all hash functions, all sequences of operations and all states these lead to",
  "The file holds positions in a numbering that exists only while writing; an entry is lost only for particular mixes of new and tried entries, and the limits matter only with full buckets.",
  ["src/p2p/addrman.h:250-383"])

with open(os.path.join(os.path.dirname(__file__), "..", "properties.jsonl"), "w") as f:
    for x in P:
        f.write(json.dumps(x, ensure_ascii=False) + "\n")
print(len(P))
