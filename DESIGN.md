# Formal model of Kunlun: design

Source under study: `/repo` (C++17, header-only). The code was read as text; nothing was built or run.
The model is in `lean/Verif/`, Lean 4.33 with single Mathlib modules.

## Trusted base

* Lean's kernel and the three standard axioms `propext`, `Classical.choice`, `Quot.sound`. Every theorem named in
  `MANIFEST.json` depends on a subset of these three (checked with `#print axioms` over all names); no other axiom, no compiled
  evaluation, no SAT certificate is used. Finite computations (AES tables, concrete witnesses) are evaluated by the kernel.
* The reading of the C++ text: every definition cites the file and lines it models.
* What is kept abstract (parameter or visible hypothesis of the theorems, never an axiom):
  * SHA-256/SM3 (`BasicHash`), the hash to the curve, the 64-bit point hash, Murmur as used by the two filters: arbitrary functions;
    where a theorem needs "no collision" this is a hypothesis. AES-128, the generator `PRG`, the AES-based hashes, CLMUL
    arithmetic, the Murmur2 and Murmur3 variants and the OKVS row hash are concrete;
  * randomness (`/dev/urandom` salts, `rand()`, scalars drawn from OpenSSL, `std::shuffle`): arbitrary parameters, so theorems hold
    for all coins. Statements about secrecy are stated as bijections of coins (C74) or as explicit attacks, not as probabilities;
  * the elliptic-curve group: an arbitrary additive commutative group in which `order • P = 0`, `order` prime where the code needs
    inverses (`Curve G`); the byte encoding of points is an arbitrary function, injective only where stated. For the curve the
    library sets up (P-256) these hypotheses are discharged in `P256*` and C100, without assumptions about the group: what is trusted
    there are the published constants and that OpenSSL computes the group law and the documented byte forms. `x25519_scalar_mulx`
    (OpenSSL's, not in the repository) is an arbitrary function in the protocol models; C103 takes it to be the function of RFC 7748
    and discharges the hypotheses made about it;
  * OpenSSL big numbers: unbounded integers `ℤ` (allocation failure not modelled); `CRYPTO_CHECK` only prints, so a failing library
    call leaves the fresh result in the model as in the code;
  * IEEE floating point in parameter computations (`log`, `log2`, `ceil`, `pow`): the exact quantity, or a parameter where the
    rounding matters (`flog` of the one-out-of-many proof). OKVS sizes computed from floating point formulas are
    arbitrary numbers in the theorems about OKVS and the protocols; C105 takes the formulas, with exact reals;
  * sockets: two FIFO byte queues with transfers of arbitrary positive size and arbitrary interleaving (C08, C75);
  * `int` loop counters are assumed not to overflow (lengths below 2^31) unless a theorem says otherwise; `&v[0]` on an empty
    vector is a harmless address computation.
* Undefined behaviour (out-of-range access, division by zero, missing exit), `exit` and thrown exceptions are a separate outcome of
  the model (`none`, `Proc.fail`), never a default value.
* OpenMP: where threads write disjoint memory the loop is a map (justified by C91, for indivisible accesses to cells); where they share state (the search for discrete logarithms, the
  Bloom filter, the permutation loop of the DDH OPRF) the schedule is a parameter; the theorems hold for every schedule, those about
  finding a logarithm for every schedule that lets each task finish. The binned OKVS is run thread by thread, with exactly the requested
  number of threads.

## What is modelled, and what is not

The right column was made by comparing the line citations in the model with the functions in each file. A function that is not listed
there is cited by some definition; "abstract" means that it is covered by an assumption of the section above instead of being modelled.
In all files: printing, timing and file names are left out.

| source | model | not modelled |
|---|---|---|
| `filter/bloom_filter.hpp` | `Bloom`, `BloomSalts`, `BloomMany` (overloads for objects and containers) | printing |
| `filter/cuckoo_filter.hpp` | `Cuckoo`, `CuckooRange` (iterator, container and point vector `Insert`) | 8- and 32-bit tags, other one-line overloads |
| `netio/stream_channel.hpp` | `Channel`, `Proto` | connection set-up (89-188) |
| `utility/serialization.hpp`, `bit_operation.hpp`, `polymul.hpp` | `Serialization`, `WordTricks`, `Poly` | |
| `utility/routines.hpp` | `WordTricks`, `DlogFiles` (`ToHexString`; `FileExist` on the table files), `BigIntRandom` (random integer vectors) | |
| `utility/murmurhash2.hpp` | `Murmur`, `Murmur64`, `Murmur3` (`MurmurHash64B`) | - |
| `utility/murmurhash3.hpp` | `LiteMurmur`, `Murmur3` | - |
| `utility/print.hpp`, `include/global.hpp`, `crypto/setup.hpp` | | everything, except that `CRYPTO_CHECK` only prints |
| `crypto/bigint.hpp` | `BigInt`, `BigIntRandom` | prime generation and the prime test itself (a parameter), `ModSquareRoot`, `GenRandomBytes`, hexadecimal; plain `Add`/`Sub`/`Mul`/`Div`/`Exp`/comparison are abstract (integers) |
| `crypto/block.hpp` | `Block`, `Transpose`, stream operators (`AtRest`) | the `std::hash` functor, printing |
| `crypto/aes.hpp` | `Aes` (concrete AES-128) | `GenDecKey` (115-118); the key stream operators are in `ParamFiles` |
| `crypto/prg.hpp` | `Prg` | `SetSeed()` from `/dev/urandom` (arbitrary salt), `CompareBits`; the seed stream operators are in `ParamFiles` |
| `crypto/otp.hpp` | `Prg` (byte vectors), `AtRest` (strings) | |
| `crypto/hash.hpp` | AES-based functions (`Hash`), `StringToECPoint` (`HashToCurve`), `StringToBlock`, `BytesToBlock`, `StringToBigInt`, `ECPointToBlock/String/Bytes`, `BlocksToBlock` over any basic hash function (`HashWrap`) | SM3/SHA-256 |
| `crypto/ec_group.hpp`, `ec_point.hpp` | `Group`, `P256`, `P256Codec`, `P256Compressed` (`ECPOINT_COMPRESSED`), vector operations, stream operators | `ToUint64` abstract in the search (C23), concrete in C106 (`Murmur64`); `FastToUint64` in `FastKey`; `std::hash` functor not modelled |
| `crypto/ec_25519.hpp` | `XOR` and use of `mulx` (`Pke`, `CwPrf`), `Mul` as RFC 7748 (`X25519*`), comparison, order, stream operators (`Ec25519`) | functor, printing |
| `crypto/prp.hpp` | | everything (the text does not compile: `void AES::Key GenKey`, undeclared `enc_key`) |
| `pke/*.hpp` | `Pke`, `Dlog`, `DlogFiles`, `CryptoFiles` | `Setup`; `CTToByteString` and `MRCTToByteString` of exponential_elgamal.hpp (those of the twisted variant are in `Adcp`) |
| `commitment/`, `signature/`, `zkp/nizk/` | `Sigma`, `EncRelation`, `RingSig`, `CryptoFiles` | `Setup` functions that only draw generators |
| `zkp/bulletproofs/`, `gadget/` | `InnerProduct`, `Bullet*`, `Gadget` | `Setup` of the gadget |
| `adcp/adcp.hpp` | `Adcp`, `AdcpMany`, `AdcpFiles`, `AdcpLedger` | `Initialize` (294-299) |
| `mpc/ot/` | `NaorPinkas`, `OtExt`, `ParamFiles` | opening the parameter files, `PrintPP` |
| `mpc/okvs/paxos.hpp` | `OkvsRow`, `OkvsLists`, `Okvs*` (`OkvsAgain`, `OkvsRekey` and `OkvsFile`: objects used again, files; `OkvsSizes`: size formulas) | tests (2382-2695); `Mtx` helper classes (43-93) are lists |
| `mpc/okvs/baxos.hpp`, `okvs_utility.hpp` | `Baxos`, `BaxosSizes`, `MatInv`, `FastDiv`, `Gf128` | tests, `col_to_dec`, `log2_floor`, `log2_ceil` |
| `mpc/vole/` | `Ggm`, `ExConv`, `Vole` | `config` (exconvcode.hpp 76-84) |
| `mpc/oprf/vole_oprf.hpp` | `VoleOprf` | `V8ToBlock` |
| `mpc/oprf/ddh_oprf.hpp`, `ote_oprf.hpp`, `mpc/peqt/` | `DdhMpc`, `OteOprf`, `ParamFiles` | |
| `mpc/psi/`, `mpc/rpmt/cwprf_mqrpmt.hpp`, `mpc/pso/` | `CwPrf`, `Pso`, `ParamFiles` | |
| `mpc/rpmt/rrpke_mqrpmt.hpp` | `RrPke` (uncompressed points), `ParamFiles` | |
| `test/` | | everything |

A citation shows where a definition comes from, not that every line in the range matters to some theorem.

## Plan per property

See `properties.jsonl` for the English statements. Each area gets a model file (`Verif/Model/*.lean`) with helper lemmas and a
property file (`Verif/Props/*.lean`) with the theorems named in `MANIFEST.json`.

| property | what is modelled | how it is proved |
|---|---|---|
| C01-C03, C71 | Bloom filter: salt generation, insert, contain, clear, write/read object at byte level | induction over the history; byte-list round-trip; whole-table kernel computation for the salt table |
| C04-C07, C80 | Cuckoo filter with explicit random stream, packed 4x16-bit buckets, victim, delete, object layout | invariant "every accepted key is in one of its two buckets or is the victim" by induction over the kick loop; bit-vector algebra for the involution; concrete witnesses for the deletion and layout defects |
| C08 | Send/Receive loops with an arbitrary list of transfer sizes; typed messages as byte codecs | induction on remaining bytes; prefix-parser round-trip |
| C09, C10, C47 | serialization as writer/parser pairs | prefix-parser lemma `parse (write v ++ rest) = some (v, rest)` |
| C11, C12 | BigInt operations over `ℤ` | `Int.emod` algebra; witness for `ModNegate` |
| C13-C15 | PRG counter state machine, concrete AES-128 and its modes, OTP | induction over block lists |
| C16-C18 | block order, bit helpers, bit transpose | `BitVec` algebra; index bookkeeping of the transpose loops |
| C19 | libdivide style divider over `Nat` with explicit 64-bit wrap | Granlund–Montgomery argument |
| C20-C22, C72 | ElGamal family in an abstract group | group algebra with scalar reduction lemma |
| C23, C73 | Shanks table + slices | existence of the (giant, baby) decomposition; witness for odd length |
| C24-C31 | Schnorr, Pedersen, Sigma protocols with the hash as parameter | group algebra; extraction in `ZMod order` |
| C32-C35 | one-out-of-many proof and ring signature | polynomial identity (completeness); explicit forger (negation of soundness) |
| C36-C40 | inner product argument, bulletproof, interval gadget | induction on recursion depth; polynomial identity; explicit adaptive forger |
| C41-C47 | ADCP transactions as a state machine | group algebra, history induction, concrete replay witness |
| C48-C50 | base OT and both extensions | algebra and per-row induction |
| C51-C54, C78, C79 | OPRFs, VOLE with GGM trees and XOR-linear code | induction on tree depth, linearity |
| C55-C59 | OKVS, positions, bins, GF(2^128), matrix inversion | linear-system invariant over the elimination, carry-less polynomial arithmetic |
| C81 | rrPKE mqRPMT over the binned OKVS with nine-block values | OKVS lemmas; the vector is a linear image of the values (`OkvsNat`), so formal values decide what a key decodes to; 256 keys with the real AES hash as witness |
| C82, C83 | The verifiers and provers of the Σ-protocols and Schnorr with the hash as parameter | the hashed strings are injective for point encodings of one length, so a two-valued hash separates them; nonces solved for from challenge and response |
| C84 | The bulletproof prover of C38 | closed form of every output; translation of the random numbers by multiples of 1/x; equality of canonical residues |
| C85 | `ExtractToSignMessageFromCTx` and the last check of `VerifyCTx`, both transaction kinds | injectivity of the hexadecimal text and of the concatenation; counterexample for the unhashed responses |
| C86 | The verifier of C36 | explicit extractor: in every round quadratic interpolation through three answers, comparison with the fourth; induction on the rounds; a mismatch is an explicit relation between the generators |
| C87 | The verifier of C38, commitments fixed first | explicit extractor on top of C86: interpolation in x, Lagrange weights in z, polynomials in z and y with too many zeros; every mismatch is an explicit relation between the generators |
| C88 | `VerifyCTx` (one receiver) as in C41 | special soundness of the three Schnorr-type proofs (C27, C29, C30), C87 for the two commitments, two openings of one commitment give a relation; integer arithmetic below the order gives v + m = balance |
| C89 | prover and verifiers of the inner-product argument and of the range proof as in C36-C39 | query strings written down without the loops; congruence of the model in the hash function (induction over the rounds), injectivity of the strings |
| C90 | stream operators, `SavePP`, `FetchPP` of all protocols in `mpc/`, with formatted input and output of numbers | decimal digits read back, induction over the sequence of values; explicit wrong values where a digit follows |
| C91 | a loop body as a tree of reads and writes of cells, a schedule as the list of iterations that make the next access (`Omp`); the bodies of `XOR`, `ECBEnc`, element-wise loops and `Packing` | an access made early commutes with the iterations before it; induction over the schedule; bits of the packed matrix by induction over the inner loops |
| C92 | the verifiers of C27–C39 (`BulletForm`) | surplus points: two copies into one vector, the second overwrites the surplus of the first; scalars: the acceptance equations depend on residues only; uniqueness: multiples of a point other than zero |
| C93 | IKNP and ALSZ receivers, one column (`OtePrivacy`) | renaming of column and pads that undoes itself |
| C94 | as C49, C50, with `Hash::FastBlocksToBlock` (`OtePrivacy`) | invariant of the sender's keys over all messages it can receive (`Ends`), then inversion of the block cipher; the receiver's program is explicit |
| C95 | PSI and PSU receivers with another end (`PsoPrivacy`) | C94 and the meaning of the mqRPMT bits |
| C96 | base VOLE (`VolePrivacy`) | renaming of keys through the block cipher and its inverse |
| C97 | account files by identity (`AdcpLedger`) | the last object saved under a name wins; C41, C46 |
| C98 | Private-ID parties with another end (`IdPrivacy`) | C79 and the run of C67 |
| C99 | hashes to the curve with coordinates (`HashToCurve`) | Euler's criterion, induction over the attempts; the other root function; the AES step undone |
| C100 | the curve P-256 (`P256Primes`, `P256`, `P256Codec`) | Lucas certificates; double-and-add evaluated by the kernel; at most 2p+1 points, no point of order 2, so the cofactor is 1 |
| C101, C102 | an OKVS object with the members `encode` leaves behind, and its file (`OkvsAgain`, `OkvsFile`) | C55 for the first call; the second call depends on the rows of the triangle only; parsing what was written |
| C103 | the Montgomery ladder of RFC 7748 on numbers below 2^255-19 (`X25519`), the curve y^2 = x^3 + 486662 x^2 + x over an algebraic closure (`Montgomery`) | invariant of the ladder in projective coordinates; curve and twist as the points fixed or negated by Frobenius; their orders from points of prime order and a counting bound; doubling formulas for the points of small order |
| C104 | `set_keys` from any column counts and weight lists, with the places in `storage` (`OkvsRekey`) | the places of the last column add up to all counts; length of `weight_set` after the loop of `triangulate` |
| C105 | size formulas of `OKVS`, `Baxos` and `Setup` with exact reals (`OkvsSizes`) | bounds of the exponentials by comparing powers of natural numbers |
| C106 | `MurmurHash64A` on bytes, `ToUint64` on P-256 (`Murmur64`), with the search of C23 | every step of the hash is a bijection; two points computed from this |
| C107 | Naor-Pinkas sender against any receiver | the two session keys add up to the Diffie-Hellman value |
| C108 | sum protocol up to the oblivious transfer | renaming of the masks, with the run of C66 |
| C109 | membership test ending with the server's view (`BloomOrder`) | extension of a partial renaming of items to a permutation; commuting insertions |
| C110 | hash of the filters group by group (`LiteMurmurColl`); a string that merges the salts, found by a search outside Lean and evaluated inside (`LiteMurmurMerge`) | solving a group for its second word; last word is a bijection, so counting keys is counting hash values |
| C111 | the encryption schemes with averages over all keys and coins (`PkeHiding`) | shifting by a multiple of the generator permutes the multiples; triangle inequality; for many ciphertexts (`PkeMany`) every one is made from the same triple with fresh random numbers, induction over their number |
| C112, C113 | set intersection and equality test ending with the receiver's view (`PsiPrivacy`, `PeqtPrivacy`) | extension of a partial renaming of items to a permutation |
| C114, C115 | averages over keys, hash tables and function tables (`DdhPrf`), OPRF ending with what a party received (`OprfPrivacy`) | random self-reduction of Diffie-Hellman triples, bijections of tables, renamings |
| C116 | `Model/DlogFiles.lean`: hexadecimal names, disk as a map from names to tables, sequences of programs | invariant of the disk over all programs before; names parsed back; pigeonhole for the clash (`DlogFiles`) |
| C117 | `Model/BigIntRandom.lean`: numbers drawn and the prime test are parameters | one-to-one maps and counts of draw sequences (`BigIntRandom`) |
| C118 | `Group`, `InnerProduct`: point vectors as lists over any commutative group | induction over the vectors (`EcVector`) |
| C119 | the MurmurHash3 functions and `MurmurHash64B` on bytes (`Murmur3`) | each step is a bijection of the state and of the group read; induction over the groups |
| C120 | sizes of `Setup` (`OteOprf`, `CwPrf`); random placements of inputs in the columns, random outputs | double counting; the binomial tail compared with `2^-40` by exact arithmetic on natural numbers, once for every table entry |
| C121 | the Bloom filter of C01 with hash functions given by tables of positions | double counting over all tables; occupied bins are negatively correlated (upper bound), Jensen (lower bound), `1.44 < 1/ln 2` |
| C122 | stream operators of keys, ciphertexts, signatures and proofs as member lists over C09 | C09 for each layout; completeness of C24, C27-C30; counterexamples for vectors and infinity |
| C123 | a simulator for the range proof that solves the two checks of the verifier for `S` and `T1` (Model/BulletSim.lean) | the affine map between its scalars and the prover's is a bijection and respects all points; `prove_parts` of C84 |
| C124 | random oracles on all short strings, programmed at one point after the other (Model/Oracle.lean); simulators of the four proofs (Model/SigmaSim.lean, Model/AdcpSim.lean) | each proof's scalars are renamed to the simulator's; the points of later proofs are longer strings, so setting a value changes no earlier one; then the Diffie-Hellman hop of C111 for two ciphertexts |
| C125 | `createAccount` | the known randomness is subtracted |
| C126 | `sign`, `EncRelation.prove` as for C32, C34; the attacker `openByAnyone` | bounds on the sum that is subtracted from `r*x^m`; decisional Diffie-Hellman for the ciphertext |
| C127 | `Schnorr.sign`, `verify`, `keyGen`; forgers are trees of questions for hash values and signatures; the hash function is a random table | signatures are simulated by setting values of the table, by induction over the tree; the forking lemma (`Model/Forking`) by an involution on tables, Jensen and Cauchy-Schwarz |
| C128 | the verifiers of `Sigma`; provers are trees of questions for hash values | forking lemma and special soundness; the hashed strings determine transcript, statement and first message |
| C129 | `verifyCTx`, `verifyMany`; senders are trees of questions for hash values | forking lemma for a challenge string that itself contains a hash value (the third challenge of the range proof); the string ends with the statement and first message of the last proof |
| C130 | `auditOpen`, `auditRate`, `auditLimit`; claimers are trees of questions for hash values | forking lemma of C128 on the string that the audit hashes, which contains the statement; union bound with C129 for amounts of accepted transactions |
| C131 | `encode`, `freeCols`, `randFill` with one random value per position | the list of weight 0 holds exactly the columns that are no pivots (invariant of the triangulation); a triangular system has one solution for every choice of the rest; counting |
| C132 | `createMany` with the oracle of C124; simulators of a list of plaintext-equality proofs on one transcript and of the balance proof (Model/AdcpManySim.lean) | induction over the receivers, one value set for each; the last two points depend on the oracle through the simulated range proof but are longer than all it asks, so both may be set; Diffie-Hellman hop for n + 2 ciphertexts |
| C133 | `justifyOpen`, `justifyRate`, `justifyLimit` with the oracle of C124; simulators that get the statement only (Model/AdcpAuditSim.lean) | the stages of C132 for each proof; the refreshed ciphertext of a limit is a re-randomisation of the public sum, which needs no key: a shift of the scalar drawn |
| C134 | `prove1`, `prove2` of gadget/range_proof.hpp after any transcript, with the oracle of C124; the simulator gets key, ciphertext, bounds and transcript | one lemma for the common end (plaintext knowledge, range proof), before it for type 2 the stage for equal logarithms and the shift of C133 |
| C135 | `Rpmt.client`, `Rpmt.server` run with perfect hash functions in the filter | the bits are those of `rpmt_run` (C63); the wrong ones are the false reports counted in C121; counting gives the effect on PSI, cardinality and PSU |
| C136 | `verify1`, `verify2` of gadget/range_proof.hpp with the oracle of C127; the prover ends with transcript, statement, bounds and proof | forking at the string of the knowledge proof or of the refreshing proof; special soundness (C27, C30) |
| C137 | string overloads of otp.hpp with their `memcpy`s, file operators of block.hpp over the streams of C09 | reduction to C15; induction over the sequence of objects; byte positions for short files |
| C138 | `FastToUint64` on the buffer of the point, with AES-128 and `FastECBEnc` | C14 for the encryption, exact description of equal keys, three points of the curve |
| C139 | overloads of `Insert` and `Contain` over the model of C01, with a schedule for the loop over the elements and one for each inner loop | C01, each iteration writes its own cell; decoding of the point encodings |
| C140 | `solve` and `decodeAll` of C57 with one random value per position of each bin | `solve` is the product of the bins; C131 for each bin; product and sum of the counts |
| C141 | the class `EC25519Point` with its loop over 32 positions in any order, streams of C09 | induction over the order, lexicographic comparison, C103 for two encodings of a point |
| C142 | the functions of hash.hpp over any basic hash function `H`, uninitialised buffers as a parameter | injectivity of the compressed encoding and of concatenated blocks; infinity leaves 32 bytes of the buffer unwritten |
| C60-C67, C74, C75 | PEQT, PSI, mqRPMT and derived protocols, composed from the models above | list algebra |
| C68-C70, C76, C77 | Murmur variants, polynomial helpers, word tricks | buffer invariant, induction, bit algebra |

Where the code violates the property, the violation is proved as a theorem with a concrete witness, and the part that does hold is
proved under a name ending in `_partial`.

## Where the code and the properties disagree

The points in this list are theorems, named in `MANIFEST.json` under the property; what was only seen while reading is in the separate
list after it, and nothing there has been proved.

* **Filters.** C06: deleting one key can remove another key's tag. C07: the victim flag is written to the wrong offset and a
  one-bucket filter writes past the buffer. C80: the file
  version of `ReadObject` uses formatted extraction (`fin >> bucket_table.data()`), so no filter is restored and most are overrun. C04: point keys hash indeterminate bytes; oversized filters wrap. Bloom: table size 0
  divides by zero.
  C110: both filters report, besides an inserted key, 2^32-1 others that anybody can compute (for the Bloom filter: keys that start with a fixed string,
  which also have one position only); the cuckoo filter ignores the error probability it is given.
* **Bytes and numbers.** C09: infinity is not restored, vector lengths are not stored. C11: `ModNegate` of a multiple of the modulus
  returns the modulus. C117: empty ranges give `start`, `GenCoPrimeLessThan` hangs below -1, `-MAX` is drawn, vectors drawn in one second are equal. C13: byte requests are not a continuous stream. C14: CBC of zero blocks is undefined. C15: the size check of the
  byte XOR only prints. C16: comparing vectors looks at a prefix only. C17: `ClearBit` erases everything else. C18: fewer than 16 rows or columns wrap the loop bound.
  C08: empty or ragged byte vectors are undefined; a receiver whose peer stops never returns.
* **Encryption.** C72: in the X25519 configuration ElGamal's set-up, key generation and encryption draw the same fixed-seed value.
  C22: key zero. C23: odd `RANGE_LEN` misses the upper half; a 64-bit key collision gives a wrong exponent. C73: a second table in one
  process corrupts the first. C116: file names of tables use a hexadecimal printer that spends eight characters on half of the bytes, so bases
  share files and decryption is wrong. C111: in that configuration encryption is deterministic. C138: `FastToUint64` ignores the low 72 bits of the abscissa. C106: points with the 64-bit key of another point can be computed, and the search does not check its
  answer.
* **Signatures and proofs.** C25: Schnorr responses are malleable. C82: the public key is not hashed, so signatures carry over to
  related keys. C26: commitment length is not bound. C31: two proof exports drop
  fields, and the export of range proofs does not separate its numbers. C33/C35: the one-out-of-many proof hashes too little: every instance has an accepted proof, ring signatures can be forged and
  attributed to any key. C39: the range proof does not hash the commitments, so a commitment to an
  out-of-range value can be fitted to a proof. C37: proofs with too few L/R points are read out of bounds. C92: surplus points and
  responses shifted by multiples of the order are accepted.
  C126: the responses of the one-out-of-many proof are sent unreduced, so everybody computes the signer of a ring signature.
  C40: negative `LEFT_BOUND` is accepted and refuses valid values.
* **ADCP.** C43: confirmed transactions can be replayed (neither serial number nor balance is compared). C46: the sender's debit in
  one-to-many transactions is not bound to the sum. C85: the responses of the transfer proof are not signed, so a third
  party can change an accepted transaction into another accepted one. C42: if the receiver's decryption ends the program the sender is already
  debited. C47: transactions do not survive the file round trip. C97: a sender among its own receivers keeps what it spent, and a receiver
  listed twice loses the first amount. C125: the initial balance is encrypted with the hash of the account's name as randomness and can be read
  by everybody who knows the name.
* **OT, OPRF, PSI.** C48: a selection byte above 1 delivers neither message. C52: `Evaluate` advances shared state, so a second call
  disagrees; sizes that are no multiple of the batch overrun; `LOG` 0 divides by zero, `LOG` 1 and 2 give columns without bytes, written outside. C62/C78: keys and masks come
  from the public `fixed_seed`; the items of the cwPRF sender are computed from its first message. C61: truncation above 32 bytes over-reads. C66: card-sum is wrong for unequal sizes and undefined for `LOG_SUM_BOUND` from 64 on. C64: fewer
  than 128 sender items end with an error. C81: in the rrPKE membership test the vector is encoded without randomness: absent keys can
  decode to another key's ciphertext (a false positive for all coins) and mostly decode to zero, which tells the client that they are
  absent; sets below 2^7 keys or 32 keys per thread are undefined. C76/C77: the block hash is invertible, the block-vector hash has explicit collisions.
  C131/C140: this is so for every OKVS, binned or not, encoded without a generator: columns no stored key hits stay as they were.
  C141: a new Curve25519 point is filled with the character '0', and `==` tells apart two encodings of one point.
  C142: `ECPointToString` and `ECPointToBytes` of the point at infinity hash uninitialised stack bytes.
  C99: `StringToECPoint` overwrites the branch that fixes the sign of y; the block is computed back from the point `BlockToECPoint` gives.
  C94: because of this, one message that was not selected opens a whole IKNP or ALSZ extension. C95: a PSU receiver finds the sender's
  whole set by trying its own items as guesses; a PSI receiver needs one item of the sender that is not its own. C98: both parties of
  Private-ID can test guesses against the shared list.
  C109: the shuffle of the membership test has a 32-bit seed; in the default build the server can test guesses for the client's items.
  C112: the cwPRF set intersection shows the receiver at which positions of the sender's list the common items stand. C113: the receiver of the equality test
  also sees matches at different positions, and equal items of its own show through the permutation. C115: the DDH OPRF blinds all inputs with one number, so
  equal inputs show.
  C90: parameter files write some numbers in decimal without separators: those of the DDH OPRF are never read back, those of the set operations
  not with a statistical parameter from 48 to 57. Which `operator<<` is used follows from name lookup and is read off the headers, not proved.
* **OKVS.** C55: with random filling, free columns are ignored when gap rows are solved, so decoding is wrong; 256 gap rows wrap a
  byte. C56: 16-bit indices overflow for a sparse size above 2^15. C57: endless loop from
  256 bins (or 255 bins and 4 threads), fewer than 32 keys per thread wrap a loop bound, bins too small because interpolation weights are
  exchanged, 8-bit decode counts wrap. C59: `check_invert_gf128` refuses invertible matrices.
  C101: with a gap row, the second `encode` of one object is wrong in both dense forms. C102: objects with a gap row cannot be written
  (gf_128) or read back (binary), and objects written before their first `encode` hang after reading.
  C104: `set_keys` on an object that had keys or ran `decode_1` writes behind the storage, and after `encode` it reads outside `weight_set`.
  C105: 27000 to 52000 items per bin (VOLE OPRF with 2^15 to 2^22 items) give 16-bit indices for more than 2^15 columns, where
  `set_sparse_1` overflows; with weight 2 and up to four items `g_limit` is negative.
* **Files.** C122: a ciphertext for several recipients read into a new object gets the first recipient's point as `Y`; the difference of a ciphertext and itself is not restored.
* **Bloom filter.** C121: with perfect hash functions the false positive rate is above the announced `2^-k` (1.44 is less than `1/ln 2`), though below twice that.
* **OTE OPRF.** C120: for fewer than 2^5 and for 2^25 to 2^30 inputs the matrix is too narrow for the 128 bits and 2^-40 of the paper.
* **VOLE.** C53: lengths whose tree levels do not add up to a multiple of 128 (257 items) read past the vectors.
  C54: the OPRF inherits this. C79: the OPRF client encodes zeros without randomness; its vector `C` *is* the server's key.

### Seen while reading, not proved

* OTE OPRF with `LOG` above 30 (shift beyond `int`); these sizes are outside the hypotheses of C52.
* Binned OKVS: `mModVals` uses `reserve` with `operator[]`; the shared
  generator is raced between threads.
* Expand-convolute code: `24 * size` is computed in 32 bits; C53 excludes the sizes for which it wraps.
* paxos: the template `gf128_mul(T1, T2)` returns a default value.
* rrPKE mqRPMT with `ECPOINT_COMPRESSED`: `memcpy` of 130 bytes from a buffer of 66. In a simulation the rate of false positives was about
  9 % of the absent keys for 2^8 keys and 0.5 % for 2^20.
* VOLE OPRF: `Client` between `Server` and `Evaluate` on one parameter object replaces the hash key (`pp.okvs.seed`).

## Checking the theorems

`seeded/LOG.jsonl` records edits of the model as a realistic bug would make them, the theorems that failed to build, and the theorems that
were tightened because they still built.
