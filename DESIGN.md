# Formal model of WaykiChain: design

The code in `/repo` (C++, WaykiChain at the pinned commit) is read as text. This directory holds a
Lean 4 model of selected functions and machine-checked theorems about that model. Nothing in `/repo`
is built or run.

## Layout

* `properties.jsonl` - the list of properties (English); written by `tools/gen_props.py`.
* `lean/Verif/<Area>/Model.lean` - the model: small total functions, one per C++ function, each with
  the file and lines it models and every simplification.
* `lean/Verif/<Area>/Lemmas.lean` - helper lemmas.
* `lean/Verif/<Area>/Props.lean` - the property theorems only, each with an `example` that meets the
  hypotheses on a concrete non-trivial case. Where a theorem needs vocabulary (a spec), it is defined
  at the top of `Props.lean` (or in `Spec.lean`) without using the model's helpers.
* `MANIFEST.json` - property -> status and theorem names.
* `seeded/LOG.jsonl` - wrong versions of the model that were tried and which theorems caught them.

## Conventions

* Amounts are `Nat` with explicit wrap-around (`wadd a b = (a + b) % 2^64`, `wsub`) wherever the C++
  performs an unchecked `uint64_t` addition or subtraction, so wrap-around is visible in the model.
  Theorems that need "no wrap" say so as a hypothesis or prove it from an invariant.
* `assert(...)` and other aborts are a distinct outcome (`Outcome.crash`/`none`), not silently ignored.
* Values computed with `double` are universally quantified parameters of the model function; theorems
  hold for every rounding. Where the code itself range-checks such a value, so does the model.
  In the CDP area (and the fuel rate) doubles are computed: `Util/Double` rounds every operation to 53
  bits, half to even, as a multiple of `2^-300`; converting a double that does not fit into
  `uint64_t` is undefined in C++ and therefore a parameter (`Conv`) that is fixed only in range.
* Hash functions are abstract: an arbitrary function, with injectivity as an explicit hypothesis of
  the theorems that need collision resistance.
* Signatures are an abstract predicate `verify key msg sig`.
* `std::map` is an association list or a function to `Option`, depending on whether sums or iteration
  over it matter; `std::set` likewise.
* Maps from C++ exceptions/`return false` to `none`/`Except.error`; the state that a caller would
  observe after a failure is modelled when the property is about failures.

## Trusted base

* Lean 4.33.0 kernel and the Mathlib modules imported.
* Axioms: at most `propext`, `Classical.choice`, `Quot.sound` (`tools/gen_manifest.py --audit` prints them for
  every property theorem). No axioms are added, no `sorry`, no `native_decide`/`bv_decide`.
* The correspondence between the C++ and the model, which is by reading; each definition cites lines.
* The model of the x86-64 instructions emitted for contracts (`exec`, `cpuStep` in `Vm/Model`), written after
  the processor manual.
* Not modelled anywhere: threads and locks, LevelDB internals and disk failures, networking, the Lua
  interpreter, the WASM machine beyond integer instructions, numbers and memory (elsewhere a WASM program is
  an arbitrary function to host calls), real cryptography, the JSON-RPC layer, `double` rounding (abstracted
  as above).

* Assumed where named as hypotheses: decryption inverts encryption, a cipher text opens under one key
  only, different keys have different public keys (`Wallet.Laws`), different passphrases give different keys
  (`Wallet.KdfInj`); hashes do not collide on the inputs compared.

## Per property plan

Status words: *proved* = the theorem states the whole property about the model; *partial* = see note;
where the code violates the property there is a theorem with a concrete witness (`..._violated`) and a
`_partial` theorem for what does hold.

* **C01 Balance operations move exactly the requested amount** - Account/Model `operateBalance` (12 cases) over per-token buckets with wrapping adds; case analysis against a table-style spec of bucket deltas.
* **C02 No balance bucket is ever overdrawn** - Same model; success implies bucket >= amount, and bucket value after = before - amount.
* **C03 A rejected balance operation changes nothing** - Counterexample for ADD_FREE with an underfunded peer; `_partial` for every other operation.
* **C04 Token supply is conserved by balance operations** - Ledger = map account -> account; induction over operation lists; wrap-freedom from the total.
* **C05 A stack of database caches behaves as one map** - KV/Model: stack of layers (association lists with tombstones, read-through insertion) over a DB map; refinement to a function key -> value.
* **C06 Flushing a cache is invisible to readers** - Same model; flush to parent and flush to DB.
* **C07 Undo restores the exact previous state** - Op-log model; induction over op sequences.
* **C08 Disconnecting a block restores the state before it** - Block = list of txs, each a list of ops over several tables; reverse undo; list of blocks.
* **C09 Iterating a cached table lists exactly its live entries in order** - Merge iterator (KV/Iter) as a state machine; proved for tables whose map order equals database byte order; violated for symbol-keyed tables (asset table, CDP indexes), witnesses in KV/IterProps.
* **C10 Database keys of different tables and entries never collide** - Byte-list keys; the prefix table is checked in full by `decide`, entry part by injectivity of encodings.
* **C11 No transaction is confirmed twice on the active chain** - TxCache: chain of blocks, cache of the last `cacheH` blocks; window invariant over connect/disconnect/restart/reload; witnesses for reward/median/genesis ids and for start-up order.
* **C12 The recent-transaction cache is a set across layers** - TxCache: layers with negative markers refine a stack of sets.
* **C13 Variable-length integers round-trip and fit their buffer** - Byte-list codec, strong induction.
* **C14 Compact sizes have one canonical encoding** - Byte-list codec, decide boundary cases by omega.
* **C15 Fixed-width key integers round-trip and sort numerically** - Byte-list codec, lexicographic order lemma.
* **C16 User identifiers round-trip through serialization** - Byte-list codec on top of C13.
* **C17 Permission check grants exactly the granted bits** - BitVec 64 statement, per-bit.
* **C18 A successful transfer moves the coins and nothing else** - Ledger model, induction over the transfer list.
* **C19 Contract fuel never exceeds what the fee pays for** - Fuel: binary32 rounding modelled exactly (Util/Float); limit part proved; charge part violated by rounding (witnesses), `_partial` with an explicit reserve.
* **C20 An unspent output is spent at most once** - Utxo: histories of transactions, block ends, proofs and foreign balance changes; unspent set = created minus consumed.
* **C21 A UTXO transaction creates no value** - Counterexamples (wrap, coin mix); `_partial` under explicit no-wrap/same-coin hypotheses.
* **C22 A UTXO is spendable only when all its conditions hold** - Utxo/Conds: independent `Meets` relation; soundness for all conditions, completeness for all but multi-signature; the redeem script is injective.
* **C23 An m-of-n output needs m different signers** - Counterexample with duplicate signatures; `_partial` when signatures are pairwise for different signers.
* **C24 Votes received equal votes cast** - Vote: ballots resolved through a consistent account table; histories of votes, registrations, other balance activity and the fork revocation; lock = total from the second fork on, largest vote before.
* **C25 Delegates are the top vote receivers** - Vote/Top: index invariant over histories, full characterisation of the list; two violations (little endian ties, votes before registration), `_partial` otherwise.
* **C26 Block producer shuffling is a permutation** - Delegate: the loop over arbitrary hash words, `List.Perm`; rounds of n slots share one seed and cover every residue.
* **C27 New delegates take over only after the full delay** - Delegate: state machine over heights with arbitrary vote results; invariant on the pending list.
* **C28 DEX orders lock what they may spend and give it back** - Dex: exact balance and order effects over all reachable order books.
* **C29 DEX settlement conserves every token** - Dex: totals and the exact effect of a deal with all fees.
* **C30 A limit order is never executed at a worse price** - Dex: decision logic of a deal; violated for sellers against market orders, `_partial` for limit orders.
* **C31 Frozen balances always cover the open orders** - Dex: invariant (equality) by induction over histories; liveness of cancellation and of checked deals.
* **C32 Operator and asset fees are split without loss** - the exact effect of each fee on every balance, by the ledger's exactness theorem; `spread` states the division independently (Verif/Asset).
* **C33 CDP totals and indexes agree with the CDPs** - Cdp/Store, Cdp/Inv: invariant `Good` of the five tables, kept by every transaction (`Step`), then by every history (Cdp/Hist).
* **C34 Pledged collateral equals the owner's open CDPs** - part of the same invariant; the balance operations of each transaction are followed exactly.
* **C35 Stablecoins in circulation are backed by recorded debt** - supply equation with the two sources of unrecorded coins as explicit terms; violated when interest is minted, `_partial` otherwise.
* **C36 CDP debt can grow only with enough collateral** - Cdp/Ratio: binary64 ratios bounded by rational ones (error below 2^-40); violated by wrap-around, by the addition-alone rule and by settlement.
* **C37 Liquidation conserves coins and never overcharges** - Cdp/Liq, Cdp/Liquid: terms and partial rates bounded in binary64, then the exact balance change; violated when the penalty wraps.
* **C38 Interest is charged for every block exactly once** - Gov/Interest: the history of each pair as a sorted list, segments characterised pointwise, value in force defined over the log of executed proposals; violated after A := 0, `_partial` otherwise.
* **C39 The median price is a median** - the sorted list is split at its middle; counting by `countP`. Violated for prices from 2^63 (the sum wraps), `_partial` below.
* **C40 The price window contains exactly the recent feeds** - invariant `Inv` (the cache at each height is a permutation of what the block there feeds, inside the window, and empty outside) kept by connect, disconnect on the node and on a copy, and restart (Verif/Price). Violated for late feeds and growing windows.
* **C41 A proposal executes at most once and only with a two-thirds majority** - Gov: request/approve/elect state machine, invariant that names the request and the approvals in the list of events; violated by the one-byte quorum, `_partial` below 383 members.
* **C42 A governed parameter reads back as set** - Gov/Params: stored values as a function of the log of executed proposals; violated for zero, `_partial` for other values, miner fees complete.
* **C43 CDP thresholds stay ordered** - Gov/Params: invariant over all histories; violated by joint updates, `_partial` for proposals that change one ratio.
* **C44 A foreign-chain deposit is minted at most once and supply matches** - history invariant over a ghost log of supply changes: the ids of the log are distinct, the supply is in minus out. Violated for ids that differ in case (witness).
* **C45 User-issued asset supply is capped and owner controlled** - every event is shown to be one of six transitions (`Tr`), and the invariant (total of balances = supply, cap, distinct issues) is kept by each.
* **C46 A globally final block is never reverted by reorganisation** - Finality: invariant over all events (blocks with arbitrary competing chains and failures, messages, losses, restarts); events one at a time (the message handlers do not hold `cs_main`), `invalidateblock` by RPC not modelled; height reported after a restart violated.
* **C47 Finality needs a two-thirds quorum of distinct producers** - Finality: message store invariant and counting loop, `_partial` for a constant number of delegates; quorum intersection; three violations.
* **C48 The Merkle root commits to the transaction list** - Merkle: flat array proved equal to repeated pairing; induction over levels; injective pair hash, leaves are no pair hashes where sizes differ.
* **C49 Merkle branches verify exactly the included transaction** - Merkle: branch loop over the flat array.
* **C50 Partial Merkle trees prove exactly the matched transactions** - Merkle/Partial: build and extract as mutual inverses, flag bytes with padding, soundness against any sender.
* **C51 Chain view queries are consistent with the block tree** - Chain: pointers as numbers, heights, skip links as an invariant of the growing index; views equal `chainOf tip`; locators by induction over the loop.
* **C52 Block rewards are paid exactly once after maturity** - Block: chain of blocks with connect/disconnect; balances equal a schedule of "run block h, pay block h-100"; counting.
* **C53 Block reward equals the fees collected less fuel** - Block: transaction loop with wrapping sums; two violations (32-bit header read, single-coin reward), `_partial` otherwise.
* **C54 Bounded containers stay bounded and keep what they promise** - Containers: `mruset` in full; `CFIFOLimitmap` refines a queue of pairs; `limitedmap` invariant; documented orders and `operator[]` violated.
* **C55 Contract account funds are conserved and released once** - AppAcc: funds as a function of the history of operations, over all histories; violated for timeouts of 2^31 and more and for overflowing releases.
* **C56 The signature cache never turns an invalid signature valid** - SigCache: cache invariant over all call histories; violated for keys without bytes, `_partial` for valid keys.
* **C57 Whatever identifier is received can be written again** - Codec; violated for malformed public keys, `_partial` for the rest.
* **C58 A user identifier has one accepted encoding** - Codec; violated (length tag of registration ids is ignored).
* **C59 A contract's work is metered** - Fuel: Lua burner as a state machine over arbitrary request sequences; violated after a caught out-of-fuel error.
* **C60 The fuel rate follows the load** - Fuel: binary64 products proved equal to truncated 90%/110%; violated below rate 10.
* **C61 Block rewards are paid only out of fees that were charged** - Block: supply equation over reachable chains; violated by force-settle transactions with a fee field.
* **C62 The block index survives a restart** - Block/Index: store and reload of index entries; violated for fuel fees of 2^32 and more.
* **C63 Validating a UTXO transaction never crashes the node** - Utxo/Conds: three-valued outcome; violated by null conditions, `_partial` without them.
* **C64 Validity of a UTXO transaction does not depend on local options** - Utxo/Conds: violated when the transaction index is off.
* **C65 The cached tip block is the block at the tip** - Chain: violated after start-up and after every disconnect; `_partial` for connecting a block.
* **C66 Accounts without a public key cannot sign** - SigCache: callers of the cache; violated for contract accounts, `_partial` for accounts with keys.
* **C67 A contract cannot stop the node** - AppAcc: three-valued outcome; violated by four reachable asserts, `_partial` without them.
* **C68 Transferring all of a contract user's funds moves everything** - AppAcc: violated when funds become due in the executing block, `_partial` otherwise.
* **C69 A checked contract run keeps the users' funds backed** - AppAcc: sums over the operations; violated by sums of 2^63 and more, `_partial` below.
* **C70 A contract pays only from its own account** - AppAcc/Pay on the account model: the number of wraps is zero because the sums agree; violated up to the second fork, `_partial` after.
* **C71 A DEX order cannot stop the node** - Dex: three-valued outcome; violated by high prices, `_partial` below 2^63.
* **C72 The list of governors changes only as proposed** - Gov: membership before and after; violated when the stored list is or becomes empty.
* **C73 An approved number of block producers takes effect at its height** - Gov: count as a function of the height after execution; violated by overlapping schedules.
* **C74 A new proposal can be approved** - Gov: expiry in 32 bits; violated by the life 2^32-1 for every later request.
* **C75 A governed CDP parameter cannot break the parameter store** - Gov/TreeLemmas: search tree with an arbitrary comparison; correct for strict total orders, violated for the order of coin pairs.
* **C76 Redundant parameter changes cost nothing** - Gov/Interest: days per segment; violated, `_partial` without a change in the range.
* **C77 Nodes with the same chain derive the same prices** - execution depends on the cache only up to the permutations of `Inv`, so two states with `Inv` and the same chain give the same verdict.
* **C78 The recorded feed height is that of the last feed** - induction over histories, for the medians of every block of the chain.
* **C79 A CDP transaction cannot stop the node** - Cdp/Liquid: three-valued outcome; violated by a stake whose debt wraps, `_partial` for sums that fit.
* **C80 The list of CDPs to settle is complete and accepted** - Cdp/Select: the prefix of the height index is the filtered index because it is sorted; violated by the wrapping counter.
* **C81 Forced liquidation finds the CDPs below the threshold** - Cdp/Select: prefix of the ratio index; key and bound compared through the rational ratio; violated for tiny ratios.
* **C82 A CDP above the liquidation ratio cannot be liquidated** - Cdp/Safe: violated on x86 for ratios of 2^64 and more.
* **C83 CDP transactions have the same outcome on all processors** - Cdp/Safe: the conversion is a parameter (`Conv`) fixed only in range; violated beyond.
* **C84 A CDP pair below its global floor is locked** - Cdp/Lock: the running totals are the sums of the open positions (C33), the computed ratio implies coverage up to rounding.
* **C85 Authority in contract calls comes from signatures or from the contracts themselves** - Wasm/Steps: a rule (`Policy`) that proves a property of all executions from single effects; Wasm/Auth: every trace entry has a reason before it (`Justified`).
* **C86 A signer's authority is used only at the contract it was given to** - Wasm/Auth; violated by notified contracts, `_partial` at native contracts.
* **C87 Contracts cannot take coins of users** - Wasm/Coins: `coinPolicy` on the asset model (C45-C50); every debit carries the authority of the account debited.
* **C88 Contracts neither create nor destroy coins** - Wasm/Coins: asset invariant plus native totals plus rewards due; violated by deployment over a paid account.
* **C89 A contract is changed by its maintainer only** - Wasm/Tables `TabOk`, combined with C85; two violations.
* **C90 The data of a contract is written by its own code only, and there is one copy of it** - Wasm/Tables; violated by numbers that mean the same contract.
* **C91 The work of a universal transaction is bounded and paid for** - Wasm/Tables `costPolicy`; trace length against fuel.
* **C92 Votes and minted rewards are in the hands of the voting contract, and the ranking agrees with the votes** - Wasm/Tables `VotesOk`; ranking violated by a vote of zero.
* **C93 The outcome of a universal transaction does not depend on the speed of the node** - the elapsed time is a parameter; violated.
* **C94 Numbers identify accounts** - `numberPolicy`; violated when registration and deployment share a transaction.
* **C95 Transactions survive the network** - formats are values (`Fmt`: write, size, read) with a class `Lawful` (round trip and range); every primitive and combinator has an instance, transactions are a table of members; `wire_complete` compares it with the class declarations.
* **C96 What is signed determines the transaction** - injectivity of the hashed member list by the same laws; violated for one fee and for negative versions.
* **C97 A block hash identifies a block** - with C48 for the Merkle root; violated for signatures.
* **C98 A received transaction can be checked and passed on** - two violations by byte strings.
* **C99 What is stored is read back** - Wire/Store: a table of record formats over the same combinators; `Storable` states the ranges from the declared types.
* **C100 The active chain is a sound chain from genesis** - Intake: the node as a state machine over delivered blocks, with index, side branch states, orphans and arbitrary verdicts; one invariant for index, flags, active chain and kept states.
* **C101 The node follows the best sound chain** - Intake: flags only ever mark unsound chains, so the best unflagged entry bounds all sound ones; each failed attempt flags one entry more, so the choice ends.
* **C102 No delivered block stops the node** - Intake: `none` stands for assertion, null dereference, endless loop and shutdown; two witnesses, and absence for all other blocks.
* **C103 A good block is taken** - Intake: completeness of the walk to the fork point; witness with an altered copy.
* **C104 The pool of orphan blocks is bounded, consistent and favours near blocks** - Intake: invariant over the three collections with a queue of hashes still to be resolved; witness with heights beyond 2^31.
* **C105 A transaction works on one copy of every account** - TxBase: heap and map of loaded accounts refine direct writes (`Sim`), saving at the end gives the same database; violated by contract deployment.
* **C106 An account does only what its permissions allow** - TxBase: table of permissions against an independent list; violated by co-signers.
* **C107 Checking a transaction throws nothing** - TxBase: permitted sender kinds against the kinds read; violated by the asset update.
* **C108 The sender's key signed the transaction** - TxBase: via the order of the database (`Spec.Ok`), which C105 preserves.
* **C109 A producer's own block is accepted** - Mine: simulation between the packing loop and the connecting loop; reachable pools by induction over `Spec.Reach`.
* **C110 The pool can follow the tip** - Mine: invariant `Clean` and `Runs` (`Follows` is an inductive relation independent of the loops).
* **C111 Better paying transactions come first** - Mine: `std::set` as an arbitrary search tree, only the descent and the duplicate test are fixed; the comparison with the new element agrees with a proper order because ids arrive ascending.
* **C112 A peer that asks is told the pool** - Mine: refuted for every pool.
* **C113 Names and numbers stand for each other** - Abi/Names: positional value of the letter list as the spec; both loops against it.
* **C114 Variable length integers have one encoding and are read safely** - Abi/Streams: `undef` is a distinct outcome for shifts of 32 and more.
* **C115 Packing loses nothing, and reading needs no more memory than the data** - Abi/Streams: a universe of types `Ty` with dependent values, one induction; `Mono` (results are stable under further bytes) gives refusal of short data; the largest `resize` is part of the result.
* **C116 Amounts of contract assets are exact** - Abi/Coins: wrapped sums characterised against the range check; text functions on character lists with `strtoll`/`atoi` modelled.
* **C117 An accepted contract interface can be read to the end** - Abi/AbiLemmas: the check is characterised for all interfaces (`recursion_check_void`); accessibility of the part relation `Sub` gives the depth.
* **C118 Action data and JSON correspond** - Abi/AbiLemmas: conversions of built-in types are a parameter with one law; induction over the depth.
* **C119 Account numbers as text are unique** - Abi/Coins.
* **C120 Every exchange operator is found by its owner, and every account owns at most one** - DexOp/Lemmas: both directions between the two tables as one invariant; operator 0 counts as owned by the configured account until stored.
* **C121 Only its owner changes an exchange operator, and only governance switches it** - DexOp/Props: `step_oper` lists the ways one record can change; the wrap of the counter is reached by an induction over 2^32 - 1 registrations.
* **C122 A new exchange operator gets a fresh number and takes no orders until governance enables it** - DexOp/Props: induction from the end of the history to the last effective switch.
* **C123 The terms of exchange operators stay within their bounds** - DexOp/Props: one induction principle (`all_records`) for properties of single records.
* **C124 An account without exchange operator can register one, and gets one only by its own will** - DexOp/Props.
* **C125 Messages are recovered from the byte stream however it is cut** - Net/Props. Streams are specified as frames plus a beginning; the receive loop is shown to keep its queue equal to the unique such split.
* **C126 Exactly the messages of this network are handled, once and in order** - Net/Props. Invariant over interleavings of reads and message loop passes; end to end with the sender's frames.
* **C127 Queued messages are written to the socket byte for byte** - Net/Props. Invariant of the send queue over arbitrary partial writes, assertions as a distinct outcome.
* **C128 Receive memory is bounded and connections do not stand still** - Net/Props. Invariant over connections driven by the socket loop's waiting rule.
* **C129 A peer makes the node hold only memory it has sent bytes for** - Net/Props. Partial, with a violation: buffers are allocated from the announced size.
* **C130 Addresses and keys survive base 58 text, and one text means one key** - Text/Lemmas: value of a row of digits in either base, the buffer bounds 138/100 and 733/1000 by 256^100 < 58^138 style inequalities; Text/Props. Partial, with a violation (zero bytes).
* **C131 Data and hashes survive hexadecimal text, and one text means one value** - Text/Props. Partial, with violations.
* **C132 The amount typed is the amount used** - Text/Props: relation `Says` between text and amount. Partial, with violations.
* **C133 Base 64 text means one byte string** - Text/Props: by groups of three bytes. Partial, with a violation.
* **C134 Blocks and undo data stay where they were written** - Files/Lemmas: invariant (every index entry is in its file, below the recorded size) over all operations, crashes included; Files/Props. Partial (undo files below 4 GiB).
* **C135 Rebuilding the index finds every block and endangers none** - Files/Props: the scan of a file made of records and zeros, by induction over blocks and files. Partial, with a violation (block twice in a file).
* **C136 No key of the wallet is lost** - Wallet/Lemmas: invariant of file and memory kept by every command, restart and crash; Wallet/Props: a key in the file is usable, and stays. Partial, with violations. Cryptography is assumed correct and key-committing (`Laws`; `toy` meets it).
* **C137 Keys of an encrypted wallet are nowhere in the clear** - Wallet/Props: invariant of the file for uninterrupted commands. Partial, with violations (timer or crash within AddKey; memory after AddKey; dropminermainkeys).
* **C138 The current passphrase and no other opens the wallet** - Wallet/Props: from the invariant and commitment. Partial, with violations (refused change locks; wallet without keys).
* **C139 The result of a streaming hash depends on the bytes alone** - Hash/Model: one text with parameters for the four classes; representation invariant (state, buffer, count) kept by Write; spec `Digest` by padding predicate and list of blocks, shown to be one value.
* **C140 The keyed hash is the one of the standard** - Same invariant for the inner and outer object; spec after RFC 2104.
* **C141 checked arithmetic** - the functions of the integer library for 64-bit operands (wrap-around, 32-bit halves, signs) against the integers of Lean.
* **C142 numbers and bytes** - little-endian digits by induction on their number; the four-byte form is shown to be faithful for exactly the numbers from 0 to 2^32 - 1.
* **C143 contract data** - refinement: the calls with their decoding of Lua tables and C strings against a map per contract; simulation by induction on the list of calls; isolation for arbitrary arguments.
* **C144 keys that stop the node** - case analysis over all calls; an exact characterisation of the wasm keys that abort.
* **C145 answers about the chain** - index of transactions built over the ancestors by induction; violations on a branch, without index and for wide heights.
* **C146 block download** - state machine over events of peers; lists, counters, maps and iterators (as tokens) agree: invariant of one book proved once for insertion, removal and drop and used for both books; the loop of requests by induction.
* **C147 getblocks and getheaders** - loops against takeWhile and take; rounds by induction; violation for a repeated question by evaluation.
* **C148 getdata** - the loop against a separate table of replies; sequences of pauses by induction.
* **C149 inventory** - the loop by induction on what waits; at most once over whole runs with a measure of the room in the set.
* **C150 asking for transactions** - pairwise distance by induction on the announcements; lower bound of the delay for repeated announcements.
* **C151 bans** - sums of penalties by induction; exact times of the ban by case analysis.
* **C152 filters** - bits set by insertion and kept by later ones; no false negatives over sequences of messages; violation of relaying with a witness.
* **C153 address tables** - one invariant over the map, the vector, the buckets and the counters, kept by each step (`Addr/Lemmas`, `Steps`, `Tried`, `All`); the specification `Consistent` does not mention the operations.
* **C154 fate of addresses** - from exact descriptions of `Add` and `Good`; the violation by `SelectTried` is a run with a full bucket evaluated by the kernel, the one for ports holds in all states.
* **C155 groups of peers** - induction over announcements; counting of entries by buckets.
* **C156 256-bit arithmetic** - lists of words; one carry lemma for sums and products, bits for shifts, and the invariant numerator = divisor * quotient + rest for the division (`Arith/Lemmas`).
* **C157 compact form** - both directions in terms of mantissa and size as natural numbers (`Arith/Compact`).
* **C158 groups** - addresses as 128-bit numbers; the group is an injective code of the region (`Ip/Class`, `Ip/Props`).
* **C159 subnets** - masks of n bits as lists (a table of the 129 masks), equality under a mask is equality of quotients, by induction over the bytes.
* **C160 classes and orders** - each test of bytes is a range of numbers; orders are those of numbers.
* **C161 numbers** - scan and gather against the grammar of the standard, by induction over the bytes; the rule for the last byte is a table of 128 bytes (`Vm/Leb`).
* **C162 integer instructions** - the standard over plain numbers (`Vm/Spec`); the interpreter equals it instruction by instruction; each emitted byte sequence is run symbolically on a small processor model (`Vm/Model`, trusted), then induction over programs (`Vm/Jit`).
* **C163 contract start** - invariant "the accessible pages are the counted ones" over all histories (`Vm/MemLemmas`).
* **C164 growth and access** - from the same invariant, against the rule of the standard.
* **C165 multi-way branches** - invariant over the stack of pending ranges: every finished case is reached, every pending range is waiting behind its unpatched branch (`Vm/TableLemmas`).
* **C166 invalidateblock, reconsiderblock** - the flags set by the operator are the flags of a node whose rules forbid that block; with the block flagged and not in the remembered chain both nodes choose alike, so the results of C100 and C101 carry over (`Intake/OperatorLemmas`).
* **C167 Blocks and commands in any order** - a weaker invariant without flags (`Safe`); the handling of side branches does not read flags, so it is compared with the node whose flags are all cleared, for which the invariant of C100 holds (`Intake/Mixed`). That every event ends: an entry that is neither flagged nor a candidate was executed, so every failed attempt flags a new entry (`Intake/MixedTotal`, `Intake/MixedProcess`).
* **C168 base 32** - the specification cuts a 40-bit number into eight characters; round trip by groups of five bytes, the converse by strong induction on the text with one case per decoder mode. Valid texts may carry anything after their end, shown by a witness.
* **C169 Tor names** - names and addresses go through C168; the number of decoded bytes is a function of the leading alphabet characters (5 * mode mod 8 bits are waiting), which gives the exact set of accepted names. Names with more text after sixteen characters are accepted, shown by a witness.
* **C170 median filter** - the last values by induction; counting argument on the sorted list for the median (`Peer/Props`).
* **C171 clock** - invariant "no warning, offset 0, and the filter is full or still holds its initial 0" over all runs; it proves that the warning is dead code.
* **C172 relay memory** - invariant "every kept item waits in the queue, the queue is in order and comes from the relays"; a witness for items relayed twice.
* **C173 pings** - histories of one connection; invariant "the ping waited for is the last one that went out" (`Last`), stated about the history and not about the stored fields; a family of runs of any length for the violation (`Peer/PingProps`).
* **C174 own addresses** - invariant of the loop of `GetLocal` (the best so far), invariant over all additions and votes, and the table of reachabilities by classes of addresses (`Peer/LocalProps`).
* **C175 saved addresses** - writer and reader as functions on lists; the positions in the file are shown injective and in range; what the reader needs (`Good`: counters right, four buckets at most, sixty-four tried) follows from the invariant of C153 for every reachable state (`Addr/SaveProps`).
