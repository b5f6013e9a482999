{"id": "C01", "title": "Bloom filter has no false negatives", "statement": "After any sequence of Insert calls on a BloomFilter with a non-empty table, Contain returns true for every key that was inserted, whatever the hash function, the salts and the other keys are.", "quantifier": "every hash function, salt list, table size that is a positive multiple of 8, insertion history and queried inserted key", "why_tests_cant": "a test samples a few key sets and the fixed Murmur hash; the claim is over all histories and all collision patterns", "anchors": ["filter/bloom_filter.hpp: PlainInsert, PlainContain, BloomFilter(size_t,size_t)"]}
{"id": "C02", "title": "Bloom filter contents depend only on the set of inserted keys", "statement": "Two insertion histories with the same set of keys leave Bloom filters that answer every Contain query identically; later inserts never turn a positive answer into a negative one, and Clear returns every answer to that of a new filter.", "quantifier": "every pair of histories with equal key sets, every query, every hash", "why_tests_cant": "needs all permutations and repetitions of all histories", "anchors": ["filter/bloom_filter.hpp: PlainInsert, Insert, Clear, Contain"]}
{"id": "C03", "title": "Bloom filter object round-trip", "statement": "Writing a Bloom filter with WriteObject into a buffer of ObjectSize() bytes and reading it with ReadObject into another filter gives a filter that answers every query as the original did, and the write never touches bytes outside ObjectSize().", "quantifier": "every reachable filter state, every prior state of the receiving object, every query", "why_tests_cant": "tests check one filter; layout errors show only for particular field values or receiving states", "anchors": ["filter/bloom_filter.hpp: WriteObject, ReadObject, ObjectSize"]}
{"id": "C04", "title": "Cuckoo filter has no false negatives under insertion", "statement": "If a sequence of Insert calls all return true then Contain returns true for every inserted key, whatever random kick-out choices were made, including when the last insertion parked a victim.", "quantifier": "every hash, every random-choice stream, every number of buckets that is a power of two, every insertion sequence whose calls all report success", "why_tests_cant": "kick-out chains depend on random choices and fill level; tests see a vanishing fraction of chains", "anchors": ["filter/cuckoo_filter.hpp: PlainInsert, PlainContain, ComputeAnotherBucketIndex"]}
{"id": "C05", "title": "Cuckoo filter partner bucket is an involution", "statement": "From either of the two buckets of a key and its tag, the partner computation gives the other one, and both indices are inside the table. Two tags lead from a bucket to the same partner exactly if they agree modulo the number of buckets; a key has two different buckets unless that number divides its tag.", "quantifier": "every tag, every index, every power-of-two bucket count", "why_tests_cant": "exhaustive testing over 2^16 tags times all indices and table sizes is not done; the algebra must hold for all sizes", "anchors": ["filter/cuckoo_filter.hpp: ComputeBucketIndex, ComputeAnotherBucketIndex, ComputeTag"]}
{"id": "C06", "title": "Cuckoo filter deletion keeps the other keys", "statement": "Deleting one inserted key never makes Contain return false for a different key that is still inserted.", "quantifier": "every history of Insert and Delete calls, every hash and random stream", "why_tests_cant": "needs two keys whose tags and buckets collide; random tests essentially never build one", "anchors": ["filter/cuckoo_filter.hpp: PlainDelete, DeleteTagFromBucket, TrySaveVictim"]}
{"id": "C07", "title": "Cuckoo filter object round-trip", "statement": "Writing a cuckoo filter into a buffer of ObjectSize() bytes and reading it back gives a filter that answers every query as the original did.", "quantifier": "every reachable filter state, in particular states holding a victim", "why_tests_cant": "the victim is used only in nearly full filters, so a test on small data never exercises its fields", "anchors": ["filter/cuckoo_filter.hpp: WriteObject(char*), ReadObject(char*), ObjectSize"]}
{"id": "C08", "title": "Stream channel delivers bytes exactly under any fragmentation", "statement": "Whatever sizes the operating system returns for each partial send and receive, the byte sequence obtained by ReceiveDataInternal of n bytes is exactly the n bytes passed to SendDataInternal, in order, and consecutive typed messages (integer, big integer, point, block vector, string) are recovered unchanged.", "quantifier": "every payload, every sequence of positive partial transfer sizes, every sequence of messages", "why_tests_cant": "loop-back sockets rarely fragment; the claim quantifies over all fragmentations", "anchors": ["netio/stream_channel.hpp: SendDataInternal, ReceiveDataInternal, SendInteger, SendString, ReceiveString, SendBlocks, SendBytesVector"]}
{"id": "C09", "title": "Stream serialization round-trip", "statement": "Reading with operator>> what operator<< wrote restores the same values for any concatenation of integers, strings, fixed-size arrays and vectors (vectors into destination vectors of the same length), with no bytes left over and none missing.", "quantifier": "every value list of every supported type, every following data in the stream", "why_tests_cant": "round-trip must hold for all contents, including embedded NULs and empty strings and any neighbours in the stream", "anchors": ["utility/serialization.hpp: operator<<, operator>>"]}
{"id": "C10", "title": "Big integer serialization round-trip", "statement": "A non-negative BigInt below 2^(8*BN_BYTE_LEN) written with operator<< or ToByteVector(LEN) is restored exactly by operator>> or FromByteVector; distinct such integers give distinct byte strings of equal length.", "quantifier": "every integer in the range and every stream suffix", "why_tests_cant": "256-bit space cannot be enumerated; the boundary and sign cases matter", "anchors": ["crypto/bigint.hpp: operator<<, operator>>, ToByteVector, FromByteVector, ToByteString"]}
{"id": "C11", "title": "BigInt modular operations return the canonical residue", "statement": "Mod, ModAdd, ModSub, ModMul, ModSquare, ModExp, ModInverse and ModNegate return a number in [0,modulus) congruent to the exact integer result.", "quantifier": "every pair of integers and every positive modulus (coprime for ModInverse)", "why_tests_cant": "needs all integers including negative ones and exact multiples of the modulus", "anchors": ["crypto/bigint.hpp: Mod, ModAdd, ModSub, ModMul, ModNegate, ModInverse, ModExp"]}
{"id": "C12", "title": "BigInt vector helpers agree with coordinate-wise arithmetic", "statement": "BigIntVectorModAdd/ModSub/ModProduct/ModScalar/ModInverse/InnerProduct compute the coordinate-wise (respectively summed) residues and refuse vectors of different lengths.", "quantifier": "all vectors of all lengths", "why_tests_cant": "needs induction over length", "anchors": ["crypto/bigint.hpp: BigIntVectorModAdd, BigIntVectorModSub, BigIntVectorModProduct, BigIntVectorModInnerProduct, BigIntVectorModScalar"]}
{"id": "C13", "title": "Pseudorandom generator produces one stream independent of request sizes", "statement": "Blocks drawn from one seed in several calls are the same as the blocks drawn in one call of the total size; two seeds initialised alike give identical output; no counter value is used twice for one seed.", "quantifier": "every seed, every list of request sizes", "why_tests_cant": "all splittings of all lengths; batch-of-8 boundary effects", "anchors": ["crypto/prg.hpp: SetSeed, GenRandomBlocks, GenRandomBytes, GenRandomBits"]}
{"id": "C14", "title": "AES batch modes agree with single-block AES and decrypt correctly", "statement": "FastECBEnc on n blocks equals block-wise AES encryption for every n; ECB and CBC decryption undo encryption for every key, IV and message length.", "quantifier": "every key, IV, block list and length", "why_tests_cant": "remainder handling of the unrolled loops depends on n modulo the batch width; all n must be covered", "anchors": ["crypto/aes.hpp: FastECBEnc, FastECBDec, FastCBCEnc, CBCEnc, CBCDec"]}
{"id": "C15", "title": "One-time-pad decryption restores the message", "statement": "OTP::Dec with the key used for OTP::Enc returns the message for messages of every length, and never reads or writes outside the vectors.", "quantifier": "every key and message length, including lengths that are not a multiple of 16 and zero", "why_tests_cant": "length-boundary behaviour over all lengths", "anchors": ["crypto/otp.hpp: OTP::Enc, OTP::Dec"]}
{"id": "C16", "title": "Block comparison is a strict total order", "statement": "Block::operator ordering used as key in ordered containers and sorting is irreflexive, transitive, total, and its equality coincides with bitwise equality.", "quantifier": "all triples of 128-bit blocks", "why_tests_cant": "2^384 triples", "anchors": ["crypto/block.hpp: BlockLess, IsLessThan, Compare, operator=="]}
{"id": "C17", "title": "Bit helpers on blocks set, clear and read exactly one bit", "statement": "Setting, clearing or flipping bit i of a block changes bit i as named and leaves every other bit alone.", "quantifier": "all blocks and all positions 0..127", "why_tests_cant": "2^128 blocks", "anchors": ["crypto/block.hpp: SetBit, ClearBit, IsLSBSet, GenMaskBlock"]}
{"id": "C18", "title": "Bit matrix transposition is exact", "statement": "BitMatrixTranspose places bit (r,c) of the input at (c,r) of the output for every supported shape, hence transposing twice gives the original matrix.", "quantifier": "every matrix with row and column counts supported by the function", "why_tests_cant": "all shapes and contents", "anchors": ["crypto/block.hpp: BitMatrixTranspose"]}
{"id": "C19", "title": "Precomputed fast division is exact", "statement": "For every 64-bit divisor d>0 and every 64-bit numerator n, the multiply-and-shift division used for hashing keys to positions equals n/d, and the derived remainder is n mod d; d=0 is rejected; the four-lane variant agrees with the scalar one.", "quantifier": "all 2^64 numerators and all divisors", "why_tests_cant": "2^128 pairs; off-by-one errors occur for extremely few pairs", "anchors": ["mpc/okvs/okvs_utility.hpp: gen_divider, divide_u64_do, divide_u64_do_vec256, doMod32"]}
{"id": "C20", "title": "ElGamal decryption inverts encryption", "statement": "Dec(sk, Enc(pk, m; r)) = m for every key pair, message and randomness, on the curve and in the X25519 variant; a re-randomised ciphertext of any origin decrypts to the same message.", "quantifier": "all secret keys, messages, randomness, scalars", "why_tests_cant": "group-size key space", "anchors": ["pke/elgamal.hpp: KeyGen, Enc, Dec, ReRand"]}
{"id": "C21", "title": "Exponential ElGamal decrypts all messages in range and is additively homomorphic", "statement": "Dec recovers every message in the configured message range, and homomorphic operations act on plaintexts as addition, subtraction and scaling modulo the group order.", "quantifier": "all keys, randomness and messages in range", "why_tests_cant": "key and message spaces", "anchors": ["pke/exponential_elgamal.hpp: Enc, Dec, HomoAdd, HomoSub, ScalarMul, ReRand"]}
{"id": "C22", "title": "Twisted ElGamal decrypts correctly and is homomorphic", "statement": "For every non-zero secret key Dec recovers the message; ReRand/ReEnc preserve the plaintext; HomoAdd/HomoSub/ScalarMul act on plaintexts; multi-recipient ciphertexts decrypt to the same message for each recipient.", "quantifier": "all non-zero secret keys, messages, randomness, recipients", "why_tests_cant": "key space; the exceptional key must be identified exactly", "anchors": ["pke/twisted_exponential_elgamal.hpp: KeyGen, Enc, Dec, ReEnc, ReRand, HomoAdd, HomoSub, ScalarMul, Enc(pp,vec_pk,m,r)"]}
{"id": "C23", "title": "Discrete-logarithm search finds every exponent in range", "statement": "The baby-step giant-step search returns x for h = g^x for every x in [0, 2^RANGE_LEN) and never returns a wrong exponent.", "quantifier": "every x in range, every range length and trade-off parameter, every thread count", "why_tests_cant": "range 2^32 and beyond, and all parameters", "anchors": ["pke/calculate_dlog.hpp: BuildHashMap, ShanksDLOG, SearchSlice"]}
{"id": "C24", "title": "Schnorr signatures verify, and two answers reveal the key", "statement": "Every honestly produced signature on every message verifies; two accepting transcripts with the same commitment and different challenges determine the secret key; an accepted signature fixes exactly one residue of the response.", "quantifier": "all keys, nonces, messages and hash functions", "why_tests_cant": "all keys and hash behaviours", "anchors": ["signature/schnorr.hpp: KeyGen, Sign, Verify"]}
{"id": "C25", "title": "Schnorr signatures have one valid response encoding", "statement": "For a given key, message and commitment only one response value z is accepted by Verify.", "quantifier": "all accepted signatures and all other integers z", "why_tests_cant": "needs search over all integers z", "anchors": ["signature/schnorr.hpp: Verify"]}
{"id": "C26", "title": "Pedersen commitments are homomorphic and binding up to a discrete-log relation", "statement": "The sum of commitments opens to the sum of messages and randomness; two different openings of one commitment yield a non-trivial linear relation between the generators.", "quantifier": "all message vectors, randomness and generator vectors", "why_tests_cant": "all openings", "anchors": ["commitment/pedersen.hpp: Commit"]}
{"id": "C27", "title": "Discrete-log equality proof is complete and special-sound", "statement": "Honest proofs verify; any two accepting transcripts with equal commitments and different challenges give one exponent w with h1=g1^w and h2=g2^w; simulated transcripts accept for any instance and challenge.", "quantifier": "all instances, witnesses, nonces, challenges, transcripts prefixes", "why_tests_cant": "soundness is a statement about all cheating provers", "anchors": ["zkp/nizk/nizk_dlog_equality.hpp: Prove, Verify"]}
{"id": "C28", "title": "Discrete-log knowledge proof is complete and special-sound", "statement": "Honest proofs verify and two accepting transcripts with equal commitment and different challenges give w with h=g^w.", "quantifier": "all instances, nonces and challenges", "why_tests_cant": "soundness is a statement about all cheating provers", "anchors": ["zkp/nizk/nizk_dlog_knowledge.hpp: Prove, Verify"]}
{"id": "C29", "title": "Plaintext-equality proof is complete and special-sound", "statement": "Honest proofs verify for any number of recipients; two accepting transcripts with equal commitments and different challenges give one (r,v) with X_i = pk_i^r for every i and Y = g^r h^v.", "quantifier": "all recipient counts, keys, messages, randomness, challenges", "why_tests_cant": "soundness is over all provers and all recipient counts", "anchors": ["zkp/nizk/nizk_plaintext_equality.hpp: Prove, Verify"]}
{"id": "C30", "title": "Plaintext-knowledge proof is complete and special-sound", "statement": "Honest proofs verify; two accepting transcripts with equal commitments and different challenges give (r,v) with X = pk^r and Y = g^r h^v.", "quantifier": "all keys, messages, randomness, challenges", "why_tests_cant": "soundness is over all provers", "anchors": ["zkp/nizk/nizk_plaintext_knowledge.hpp: Prove, Verify"]}
{"id": "C31", "title": "Proof byte strings contain every proof field", "statement": "The byte string exported for a proof determines the proof: two different proofs of the same shape have different exported strings.", "quantifier": "all pairs of proofs", "why_tests_cant": "needs two proofs differing only in one field", "anchors": ["zkp/nizk/nizk_plaintext_equality.hpp: ProofToByteString", "zkp/nizk/nizk_dlog_equality.hpp: ProofToByteString"]}
{"id": "C32", "title": "Encryption-relation (one-out-of-many) proof is complete", "statement": "When one of N = n^m ciphertexts encrypts zero under the known randomness, the honest proof verifies, for every index and every challenge.", "quantifier": "all indices, sizes n^m, randomness and hash functions", "why_tests_cant": "polynomial identity over all sizes", "anchors": ["zkp/nizk/nizk_enc_relation.hpp: Prove, Verify, Decompose"]}
{"id": "C33", "title": "Encryption-relation proof is sound", "statement": "Nobody without a witness can produce an accepting proof: an accepting proof for an instance implies that one of the ciphertexts encrypts zero.", "quantifier": "all instances and all cheating provers (for any hash function)", "why_tests_cant": "a forgery strategy is an existential over adversaries, not an input sample", "anchors": ["zkp/nizk/nizk_enc_relation.hpp: Verify"]}
{"id": "C34", "title": "Accountable ring signature verifies, opens to the signer and is justified", "statement": "A signature by ring member l verifies, Open by the authority returns the public key of member l with a proof that Justify accepts.", "quantifier": "all rings of size 2^m, signers, messages, keys and randomness", "why_tests_cant": "all sizes and keys", "anchors": ["signature/accountable_ring_sig.hpp: Sign, Verify, Open, Justify"]}
{"id": "C35", "title": "Accountable ring signature is unforgeable by non-members", "statement": "Only the holder of a ring member's secret key can produce a signature that Verify accepts.", "quantifier": "all rings, messages, hash functions and forging strategies", "why_tests_cant": "forging strategies cannot be enumerated", "anchors": ["signature/accountable_ring_sig.hpp: Verify", "zkp/nizk/nizk_enc_relation.hpp: Verify"]}
{"id": "C36", "title": "Inner-product argument is complete", "statement": "Verify accepts every honest proof for vectors of length 2^k, for all k and all challenges that are invertible, and refuses to set up lengths that are not a power of two.", "quantifier": "all k, vectors, generators, hash functions", "why_tests_cant": "induction over the recursion depth", "anchors": ["zkp/bulletproofs/innerproduct_proof.hpp: Prove, Verify, Setup"]}
{"id": "C37", "title": "Fast inner-product verification agrees with the plain one", "statement": "FastVerify and Verify give the same answer on every proof whose L and R vectors have the length fixed by the instance, and the fast scalar table equals the plain one entry by entry.", "quantifier": "all proofs, including dishonest ones, and all challenge vectors", "why_tests_cant": "needs equality for all challenge values and all depths", "anchors": ["zkp/bulletproofs/innerproduct_proof.hpp: ComputeVectorSS, FastComputeVectorSS, Verify, FastVerify"]}
{"id": "C38", "title": "Aggregated range proof is complete", "statement": "Bulletproof Verify accepts honest proofs for any number of committed values in [0,2^RANGE_LEN).", "quantifier": "all value vectors, blinding factors and hash functions with non-zero challenges", "why_tests_cant": "polynomial identity over all sizes", "anchors": ["zkp/bulletproofs/bullet_proof.hpp: Prove, Verify"]}
{"id": "C39", "title": "Aggregated range proof binds the commitments it is about", "statement": "A proof accepted for commitments C implies knowledge of openings chosen before the challenges: one cannot first produce a proof and then choose a commitment for which it verifies.", "quantifier": "all provers and all hash functions", "why_tests_cant": "existence of an adaptive forging strategy", "anchors": ["zkp/bulletproofs/bullet_proof.hpp: Prove, Verify"]}
{"id": "C40", "title": "Interval reduction of the range gadget is exact", "statement": "A value lies in [LEFT,RIGHT) exactly when both shifted values handed to the range proof lie in [0,2^n); the adjusted commitments open to the shifted values.", "quantifier": "all values, bounds with 0<=LEFT<RIGHT<=2^n, and all n", "why_tests_cant": "boundary behaviour for all bounds and n", "anchors": ["gadget/range_proof.hpp: AdjustBulletInstance, AdjustBulletWitness, Prove, Verify"]}
{"id": "C41", "title": "Confidential transaction by an honest sender is accepted", "statement": "CreateCTx with 0 <= v <= balance < 2^L gives a transaction VerifyCTx accepts and Miner applies.", "quantifier": "all balances, amounts, keys, randomness and hash functions", "why_tests_cant": "all amounts and keys", "anchors": ["adcp/adcp.hpp: CreateCTx, VerifyCTx, Miner"]}
{"id": "C42", "title": "Applying a confidential transaction conserves the total balance", "statement": "Applying an accepted transaction lowers the sender balance by v and raises the receiver's by v; the sum of plaintext balances never changes over any history.", "quantifier": "all accounts, amounts, and histories", "why_tests_cant": "invariant over unbounded histories", "anchors": ["adcp/adcp.hpp: UpdateAccount, Miner"]}
{"id": "C43", "title": "A confirmed transaction cannot be applied twice", "statement": "After Miner has accepted and applied a transaction, submitting the same transaction again is rejected; a balance never goes below zero.", "quantifier": "all transactions and histories", "why_tests_cant": "needs adversarial histories, not honest ones", "anchors": ["adcp/adcp.hpp: Miner, VerifyCTx, UpdateAccount"]}
{"id": "C44", "title": "The supervisor reads the true amount of every accepted transaction", "statement": "SuperviseCTx with the supervisor key returns the amount by which the receiver's balance changes.", "quantifier": "all transactions produced with any keys; honest and special-sound case", "why_tests_cant": "all keys and amounts", "anchors": ["adcp/adcp.hpp: SuperviseCTx, CreateCTx"]}
{"id": "C45", "title": "Policy audits accept honest justifications and reject false ones", "statement": "Open, rate and limit policies: honest justification is accepted; two accepting transcripts with different challenges imply the claimed relation between the hidden amounts.", "quantifier": "all amounts, rates, limits and transaction lists", "why_tests_cant": "soundness over all provers", "anchors": ["adcp/adcp.hpp: JustifyPolicy, AuditPolicy"]}
{"id": "C46", "title": "One-to-many confidential transactions pay every receiver", "statement": "Miner applied to an accepted one-to-many transaction credits each listed receiver and debits the sender by the sum.", "quantifier": "all receiver lists and amounts, every caller-provided account list", "why_tests_cant": "all list lengths, including mismatched ones", "anchors": ["adcp/adcp.hpp: CreateCTx(ToMany), VerifyCTx, UpdateAccount, Miner"]}
{"id": "C47", "title": "Transaction and account files round-trip", "statement": "FetchCTx after SaveCTx, FetchAccount after SaveAccount and FetchPP after SavePP restore the stored object, into any receiving object.", "quantifier": "all objects and all states of the receiving object", "why_tests_cant": "depends on the receiving object's state", "anchors": ["adcp/adcp.hpp: SaveCTx, FetchCTx, SaveAccount, FetchAccount, SavePP, FetchPP"]}
{"id": "C48", "title": "Naor-Pinkas oblivious transfer delivers the chosen messages", "statement": "Receive returns message vec_m[b_i] for every selection bit b_i, for all keys and randomness.", "quantifier": "all message vectors, selection vectors and randomness", "why_tests_cant": "all lengths and selection patterns, including bytes other than 0 and 1", "anchors": ["mpc/ot/naor_pinkas_ot.hpp: Send, Receive"]}
{"id": "C49", "title": "IKNP extension delivers the chosen messages", "statement": "For every extension length that is a multiple of 128 the receiver obtains m0 where its bit is 0 and m1 where it is 1; the one-sided version yields exactly the messages at selected positions in order.", "quantifier": "all lengths, bits, base-OT keys and messages", "why_tests_cant": "all lengths and key material", "anchors": ["mpc/ot/iknp_ote.hpp: Send, Receive, OnesidedSend, OnesidedReceive, RandomSend, RandomReceive"]}
{"id": "C50", "title": "ALSZ extension delivers the chosen messages", "statement": "For every extension length that is a multiple of 128 the receiver obtains m0 where its bit is 0 and m1 where it is 1; the one-sided version yields exactly the messages at selected positions in order.", "quantifier": "all lengths, bits, base-OT keys and messages", "why_tests_cant": "all lengths and key material", "anchors": ["mpc/ot/alsz_ote.hpp: Send, Receive, OnesidedSend, OnesidedReceive, RandomSend, RandomReceive, SendByteVector"]}
{"id": "C51", "title": "DDH-based OPRF: client output equals server evaluation", "statement": "For every server permutation map and every invertible blinding, the client's output at position permutation_map[i] equals Evaluate of the server key on the client's input i; with the identity map the outputs are in input order.", "quantifier": "all keys, blindings, input vectors, permutations", "why_tests_cant": "key space", "anchors": ["mpc/oprf/ddh_oprf.hpp: Server, Client, Evaluate"]}
{"id": "C52", "title": "OT-extension OPRF: client output equals server evaluation", "statement": "The client's outputs equal the server's Evaluate on the same inputs with the key Server returned.", "quantifier": "all inputs, seeds and hash functions, all set sizes", "why_tests_cant": "all location patterns", "anchors": ["mpc/oprf/ote_oprf.hpp: Server, Client, Evaluate"]}
{"id": "C53", "title": "Vector OLE correlation holds", "statement": "VOLE_A and VOLE_B outputs satisfy B_i = C_i + A_i*Delta for every length for which the protocol is defined, and all memory accesses are inside their vectors.", "quantifier": "all lengths, seeds, Delta, and random coins", "why_tests_cant": "tree depth, padding and remainder cases over all lengths", "anchors": ["mpc/vole/vole.hpp: VOLE_A, VOLE_B, FullEval, PuncEval", "mpc/vole/basevole.hpp: baseVOLE_A, baseVOLE_B", "mpc/vole/exconvcode.hpp: dualEncode, dualEncode2"]}
{"id": "C54", "title": "VOLE-based OPRF: client output equals server evaluation", "statement": "For every input set on which the key-value store solves, the client's output on x equals the server's Evaluate on x.", "quantifier": "all inputs, seeds and keys", "why_tests_cant": "all inputs", "anchors": ["mpc/oprf/vole_oprf.hpp: Client, Server, Evaluate"]}
{"id": "C55", "title": "Oblivious key-value store decodes what was encoded", "statement": "If encode returns for distinct keys, decode of the produced vector at each key returns its value; decoding is linear in the stored vector.", "quantifier": "all key/value lists, all hash functions, all sizes, with and without randomisation", "why_tests_cant": "peeling order and gap patterns vary per key set; randomised encoding with gaps is rare in tests", "anchors": ["mpc/okvs/paxos.hpp: encode, decode, triangulate, backfill"]}
{"id": "C56", "title": "Sparse row positions are distinct and in range", "statement": "Hashing a key gives weight distinct positions below the sparse size, for all hash values.", "quantifier": "all hash values and sizes", "why_tests_cant": "2^128 hash values", "anchors": ["mpc/okvs/paxos.hpp: set_sparse, set_sparse_1"]}
{"id": "C57", "title": "Binned key-value store behaves like the unbinned one for any thread count", "statement": "Baxos solve/decode gives each key the value it was stored with for every number of bins and threads.", "quantifier": "all key sets, bin counts and thread counts", "why_tests_cant": "thread partition and bin-count edge cases", "anchors": ["mpc/okvs/baxos.hpp: solve, decode, impl_solve, impl_decode"]}
{"id": "C58", "title": "GF(2^128) multiplication and inversion form a field", "statement": "gf128_mul is commutative, associative and distributes over xor, one_block is neutral, and gf128_inv(x) is the inverse of every non-zero x.", "quantifier": "all 128-bit elements", "why_tests_cant": "2^384 triples", "anchors": ["mpc/okvs/okvs_utility.hpp: gf128_mul, gf128_inv", "mpc/vole/basevole.hpp: gf128_mul"]}
{"id": "C59", "title": "Matrix inversion check is correct", "statement": "check_invert and check_invert_gf128 return true exactly for invertible matrices and then produce the inverse.", "quantifier": "all square matrices over GF(2) and GF(2^128)", "why_tests_cant": "all sizes and entries", "anchors": ["mpc/okvs/okvs_utility.hpp: check_invert, check_invert_gf128"]}
{"id": "C60", "title": "Permuted equality test reports exactly the equal pairs", "statement": "The receiver's result at permuted position pi(i) is 1 exactly when x_i = y_i (for hash and point encodings that do not collide), and the permutation is a bijection.", "quantifier": "all input matrices, keys, permutations", "why_tests_cant": "all permutations and inputs", "anchors": ["mpc/peqt/peqt_from_ddh.hpp: Send, Receive"]}
{"id": "C61", "title": "cwPRF PSI returns the intersection", "statement": "The receiver's output contains every common item, and nothing else when truncated images do not collide.", "quantifier": "all sets, keys and hash functions", "why_tests_cant": "all sets and keys", "anchors": ["mpc/psi/cwprf_psi.hpp: Send, Receive"]}
{"id": "C62", "title": "The two parties of cwPRF protocols use independent keys", "statement": "The sender's and receiver's secret scalars in one protocol run are chosen independently.", "quantifier": "all runs", "why_tests_cant": "output correctness is unaffected, so functional tests cannot see it", "anchors": ["mpc/psi/cwprf_psi.hpp: Send, Receive", "mpc/rpmt/cwprf_mqrpmt.hpp: Server, Client"]}
{"id": "C63", "title": "mqRPMT indication bits have no false negatives", "statement": "Every queried item that occurs in the other party's set gets indication bit 1; with exact comparison bits are 1 only for members.", "quantifier": "all sets, keys and hash functions", "why_tests_cant": "all sets", "anchors": ["mpc/rpmt/cwprf_mqrpmt.hpp: Server, Client"]}
{"id": "C64", "title": "PSI from mqRPMT returns the intersection", "statement": "The receiver obtains exactly the sender items whose indication bit is 1, hence the intersection when the bits are exact.", "quantifier": "all item vectors", "why_tests_cant": "all sets and sizes", "anchors": ["mpc/pso/mqrpmt_psi.hpp: Send, Receive"]}
{"id": "C65", "title": "PSU from mqRPMT returns the union without duplicates", "statement": "The receiver's output is its own items followed by the sender items not in its set; nothing is lost and no common item is repeated when the bits are exact, including the padded byte-vector version.", "quantifier": "all item vectors of all lengths", "why_tests_cant": "all sets and paddings", "anchors": ["mpc/pso/mqrpmt_psu.hpp: Send, Receive"]}
{"id": "C66", "title": "PSI cardinality and cardinality-sum are exact", "statement": "Cardinality is the number of common items and the sum is the sum of values of common items modulo the bound, for any relation between the two set sizes.", "quantifier": "all sets, value vectors and set sizes", "why_tests_cant": "needs unequal sizes and all values", "anchors": ["mpc/pso/mqrpmt_psi_card.hpp: Send, Receive", "mpc/pso/mqrpmt_psi_card_sum.hpp: Send, Receive"]}
{"id": "C67", "title": "Private-ID assigns equal identifiers exactly to equal items", "statement": "Both parties derive the same identifier for a common item, and both end with the same set of identifiers.", "quantifier": "all sets and keys", "why_tests_cant": "all sets", "anchors": ["mpc/pso/mqrpmt_private_id.hpp: Send, Receive"]}
{"id": "C68", "title": "Incremental hashing agrees with one-shot hashing", "statement": "Feeding a message to the incremental Murmur hasher in any split gives the same value as one call on the whole message; the aligned and byte-order-neutral variants agree with the reference.", "quantifier": "all messages and all ways of splitting them", "why_tests_cant": "all splits of all lengths", "anchors": ["utility/murmurhash2.hpp: CMurmurHash2A, MurmurHash2A, MurmurHashNeutral2, MurmurHashAligned2"]}
{"id": "C69", "title": "Polynomial helpers compute products and values", "statement": "PolyMul returns the coefficients of the product and EvalPoly the value at a point, modulo the order, for polynomials of all degrees.", "quantifier": "all coefficient vectors", "why_tests_cant": "all degrees", "anchors": ["utility/polymul.hpp: PolyMul, EvalPoly"]}
{"id": "C70", "title": "Word tricks are exact", "statement": "upperpower2 gives the least power of two not below its argument, IsPowerOfTwo decides powers of two, and the packed tag search finds a tag exactly when it is in the bucket.", "quantifier": "all words", "why_tests_cant": "2^64 words", "anchors": ["utility/bit_operation.hpp: upperpower2, haszero16, hasvalue16", "utility/routines.hpp: IsPowerOfTwo"]}
{"id": "C71", "title": "Bloom filter hash functions are pairwise distinct", "statement": "A filter built by the constructor with k hash functions has k pairwise distinct salts, for every k, so it really uses k different hash functions.", "quantifier": "every number of hash functions, every rand() stream", "why_tests_cant": "a false-positive-rate test cannot see one merged hash function; the claim covers every hash count and seed", "anchors": ["filter/bloom_filter.hpp: GenUniqueSaltVector"]}
{"id": "C72", "title": "Key generation draws fresh secrets", "statement": "Two calls of ElGamal KeyGen give unrelated secret keys and the secret key is not among the published parameters; in particular a message encrypted with Enc cannot be read from the public parameters and the ciphertext.", "quantifier": "all seeds, all messages, all runs of Setup, KeyGen and Enc", "why_tests_cant": "a round-trip test passes with a constant secret key; only reasoning about every run shows that the key never depends on fresh entropy", "anchors": ["pke/elgamal.hpp: Setup, KeyGen, Enc (ENABLE_X25519_ACCELERATION)"]}
{"id": "C73", "title": "Decryption tables of different bases do not interfere", "statement": "A process may initialise the discrete-logarithm tables for several bases; decryption for one base is not changed by initialising another.", "quantifier": "all pairs of bases, all messages", "why_tests_cant": "tests initialise one table per process", "anchors": ["pke/calculate_dlog.hpp: LoadTable, ShanksDLOG"]}
{"id": "C74", "title": "Naor-Pinkas receiver messages carry no information about the selection bits", "statement": "For any two selection vectors there is a bijection of the receiver's key draws under which the messages sent are identical.", "quantifier": "all selection vectors, sender keys and receiver keys", "why_tests_cant": "perfect hiding is a statement about all keys at once; no run can show it", "anchors": ["mpc/ot/naor_pinkas_ot.hpp: Receive"]}
{"id": "C75", "title": "The result of a protocol does not depend on timing", "statement": "When a two-party protocol can finish with given results, every schedule of the two processes and of message delivery finishes, in a bounded number of steps, with those same results.", "quantifier": "all protocols, all interleavings", "why_tests_cant": "tests see a handful of schedules", "anchors": ["netio/stream_channel.hpp: SendXXX, ReceiveXXX", "mpc/ot/naor_pinkas_ot.hpp"]}
{"id": "C76", "title": "Hashing a block to a point string never collides", "statement": "Hash::BlockToBytes maps distinct 128-bit items to distinct 32-byte strings and always succeeds.", "quantifier": "all pairs of items", "why_tests_cant": "2^255 pairs; a collision would silently change a set operation", "anchors": ["crypto/hash.hpp: BlockToBytes"]}
{"id": "C77", "title": "Hashing a vector of blocks is collision resistant", "statement": "Distinct vectors of blocks have distinct images under FastBlocksToBlock unless a collision of the underlying primitive was found.", "quantifier": "all pairs of block vectors", "why_tests_cant": "a structural collision is invisible to random tests", "anchors": ["crypto/hash.hpp: FastBlocksToBlock, CBCAES"]}
{"id": "C78", "title": "OPRF keys and inputs stay secret", "statement": "The server's key depends on random choices the client does not know, and the matrix the client sends depends on random choices the server does not know.", "quantifier": "all runs, all inputs", "why_tests_cant": "a correctness test passes with constant masks; only reasoning about every run shows that the key never depends on fresh entropy", "anchors": ["mpc/oprf/ote_oprf.hpp: Server, Client"]}
{"id": "C79", "title": "VOLE OPRF: the client learns the function on its own items only", "statement": "After a run of the VOLE-based OPRF, what the client holds does not determine the server's function on items outside the client's set; in particular the client cannot compute the server's key.", "quantifier": "all runs, all input sets, all coins", "why_tests_cant": "tests compare the two outputs on equal items, and these agree whether or not the client's intermediate vector is the key itself", "anchors": ["mpc/oprf/vole_oprf.hpp: Client, Server"]}
{"id": "C80", "title": "Cuckoo filter file round-trip", "statement": "Writing a cuckoo filter to a file and reading the file into a new object gives a filter that answers every query as the original did.", "quantifier": "every reachable filter state", "why_tests_cant": "whether a filter is restored depends on the values of its table bytes; and a write one byte past the table usually goes unnoticed in a test", "anchors": ["filter/cuckoo_filter.hpp: WriteObject(std::string), ReadObject(std::string)", "utility/serialization.hpp: operator>>"]}
{"id": "C81", "title": "rrPKE mqRPMT gives the server membership bits and the client nothing", "statement": "After a run of the re-randomisable-encryption membership test the server has one bit per client key, which is 1 exactly for the keys it has itself (up to a collision), and the values the client decodes do not tell it which of its keys the server has.", "quantifier": "all key sets of the sizes of Setup, all key pairs, messages and random numbers of both parties", "why_tests_cant": "the repository's test only compares the number of ones; whether an absent key decodes to a valid ciphertext depends on the positions of the free columns, which random sets of one size do not explore", "anchors": ["mpc/rpmt/rrpke_mqrpmt.hpp: Server, Client, CTtoBlockArrayValue, BlockArrayValueToCT", "pke/elgamal.hpp: CTtoByteArray, ByteArraytoCT", "mpc/okvs/baxos.hpp: solve, decode"]}
{"id": "C82", "title": "The challenges of the Sigma proofs bind statement and first message", "statement": "In the Schnorr signature, the discrete-log knowledge and equality proofs and the plaintext knowledge and equality proofs, two different pairs of statement (for Schnorr: message) and first message have independent challenges: for any two values there is a hash function that gives them together. A verifier never takes the challenge of one statement for another.", "quantifier": "all statements, first messages and transcripts, all point encodings of one length", "why_tests_cant": "an omitted part of the transcript leaves every honest proof valid, so tests that prove and verify still pass", "anchors": ["signature/schnorr.hpp: Verify", "zkp/nizk/nizk_dlog_equality.hpp: Verify", "zkp/nizk/nizk_dlog_knowledge.hpp: Verify", "zkp/nizk/nizk_plaintext_equality.hpp: Verify", "zkp/nizk/nizk_plaintext_knowledge.hpp: Verify"]}
{"id": "C83", "title": "Sigma proofs and Schnorr signatures reveal nothing about the secret", "statement": "For every challenge and every response in range there is exactly one choice of nonces below the order with which the prover outputs the proof that a simulator computes from the statement alone. So proof and challenge together are distributed independently of the witness.", "quantifier": "all statements with a witness, all challenges and responses", "why_tests_cant": "a statement about the distribution over all nonces; a test sees one proof", "anchors": ["signature/schnorr.hpp: Sign", "zkp/nizk/nizk_dlog_equality.hpp: Prove", "zkp/nizk/nizk_dlog_knowledge.hpp: Prove", "zkp/nizk/nizk_plaintext_equality.hpp: Prove", "zkp/nizk/nizk_plaintext_knowledge.hpp: Prove"]}
{"id": "C84", "title": "The range proof does not depend on which opening is used", "statement": "For two openings of the same commitments with all values in range, the prover's random numbers can be renamed one-to-one so that the second opening gives exactly the same proof and transcript. The proof reveals nothing about the values beyond the commitments.", "quantifier": "all numbers of commitments, values in range, blinding factors, random numbers and hash functions without zero challenges", "why_tests_cant": "a statement about the distribution over all random numbers of the prover", "anchors": ["zkp/bulletproofs/bullet_proof.hpp: Prove", "zkp/bulletproofs/innerproduct_proof.hpp: Prove"]}
{"id": "C85", "title": "The last proof of a confidential transaction binds its contents", "statement": "ExtractToSignMessageFromCTx determines serial number, keys, the sender's balance ciphertext and the transfer ciphertexts; the challenge of the last proof checked by VerifyCTx is the hash of a string that determines serial number, sender balance and first message. Nobody can change an accepted transaction into a different accepted one.", "quantifier": "all transactions, one receiver and many, all changes", "why_tests_cant": "a forgotten field in the message leaves every honest transaction valid", "anchors": ["adcp/adcp.hpp: ExtractToSignMessageFromCTx, VerifyCTx"]}
{"id": "C86", "title": "An inner-product proof convinces its verifier", "statement": "A prover that can answer different challenges of every round for one fixed point P knows vectors a, b with P = g^a h^b u^<a,b>: they are computed from its accepted answers by explicit formulas, unless the same computation yields a non-trivial relation between the generators.", "quantifier": "all vector lengths 2^k, generators, points P, and all provers (trees of accepted answers)", "why_tests_cant": "knowledge soundness quantifies over all cheating provers; tests only run the honest prover", "anchors": ["zkp/bulletproofs/innerproduct_proof.hpp: Verify"]}
{"id": "C87", "title": "A range proof convinces its verifier when the commitments are fixed first", "statement": "A prover that can answer different values of all challenges (in the order A, y, S, z, T1 T2, x, e, rounds) for fixed commitments C_j knows openings g^{r_j} h^{v_j} of them with 0 <= v_j < 2^RANGE_LEN: they are computed from its accepted answers by explicit formulas, unless the same computation yields a non-trivial relation between the generators.", "quantifier": "all ranges and numbers of commitments with a power of two as product, all generators, commitments, and all provers (trees of accepted answers)", "why_tests_cant": "knowledge soundness quantifies over all cheating provers; tests only run the honest prover", "anchors": ["zkp/bulletproofs/bullet_proof.hpp: Verify", "zkp/bulletproofs/innerproduct_proof.hpp: FastVerify"]}
{"id": "C88", "title": "An accepted transaction does not overdraw the balance it names", "statement": "A sender that can answer different challenges in VerifyCTx (one receiver) pays an amount v and keeps a rest m, both in [0,2^RANGE_LEN), with v + m equal to the plaintext of the balance ciphertext named in the transaction; v is the plaintext of the transfer under the keys of sender, receiver and supervisor. The numbers and the sender's key are computed from the accepted answers, unless these yield a non-trivial relation between the generators. The first challenge of the range proof is the hash of a string that determines both commitments.", "quantifier": "all parameters, keys, transactions, hash functions, and all senders (forks and trees of accepted transactions)", "why_tests_cant": "solvency against cheating senders quantifies over all adversaries; tests run the honest CreateCTx", "anchors": ["adcp/adcp.hpp: VerifyCTx", "zkp/bulletproofs/bullet_proof.hpp: FastVerify"]}
{"id": "C89", "title": "Range-proof challenges are computed from everything sent before them", "statement": "Prover and verifiers of the inner-product argument and of the range proof ask the hash function at the same strings and at no others: the transcript followed by A, then S, then T1 T2, then the bytes of x, then L and R of each round. Each string determines the transcript before the proof and all messages sent before its challenge, and the transcript handed on contains them all.", "quantifier": "all parameters, proofs, transcripts and hash functions; all point encodings that are injective and of fixed length", "why_tests_cant": "if prover and verifier both forget to hash a message, every honest proof still verifies", "anchors": ["zkp/bulletproofs/bullet_proof.hpp: Prove, Verify, FastVerify", "zkp/bulletproofs/innerproduct_proof.hpp: Prove, Verify, FastVerify"]}
{"id": "C90", "title": "Protocol parameters survive SavePP and FetchPP", "statement": "For every two-party protocol, FetchPP reads from a file written by SavePP exactly the parameters that were saved, whatever the receiving object held, so both parties run with equal parameters.", "quantifier": "all parameter values, all contents of the receiving object and of uninitialised buffers", "why_tests_cant": "the files are read back correctly for the default parameters of most tests; which operator<< a number goes through is decided by name lookup", "anchors": ["mpc/oprf/ddh_oprf.hpp: SavePP, FetchPP", "mpc/oprf/ote_oprf.hpp: SavePP, FetchPP", "mpc/ot/iknp_ote.hpp: SavePP, FetchPP", "mpc/ot/alsz_ote.hpp: SavePP, FetchPP", "mpc/ot/naor_pinkas_ot.hpp: SavePP, FetchPP", "mpc/psi/cwprf_psi.hpp: SavePP, FetchPP", "mpc/rpmt/cwprf_mqrpmt.hpp: SavePP, FetchPP", "mpc/rpmt/rrpke_mqrpmt.hpp: SavePP, FetchPP", "mpc/pso/mqrpmt_psi.hpp: SavePP, FetchPP", "mpc/pso/mqrpmt_private_id.hpp: SavePP, FetchPP"]}
{"id": "C91", "title": "Parallel loops compute what they compute without the pragma", "statement": "An OpenMP loop in which no iteration writes a memory cell another one touches leaves, for every number of threads and every interleaving of their accesses, the memory the sequential loop leaves: XOR (also in place), ECBEnc and ECBDec, the element-wise vector loops and the bit-matrix transposition of Packing give their specified results; the loop is left as soon as every iteration has been served.", "quantifier": "all loop lengths, memory contents, bodies within their own cells, schedules", "why_tests_cant": "a lost update shows only under rare interleavings", "anchors": ["crypto/otp.hpp: XOR", "crypto/aes.hpp: ECBEnc, ECBDec", "crypto/ec_point.hpp: ECPointVectorAdd, ECPointVectorScalar, ECPointVectorProduct", "mpc/oprf/ote_oprf.hpp: Packing"]}
{"id": "C92", "title": "Proofs have one accepted form", "statement": "The verifiers of the inner-product argument, the range proof and the sigma protocols accept a proof only with the number of points the protocol sends and with responses below the group order; to fixed first messages of a sigma protocol there is one accepted response. Nobody can turn an accepted proof into different bytes that are accepted as well.", "quantifier": "all parameters, statements, proofs, transcripts and hash functions", "why_tests_cant": "tests look at honest proofs and a few damaged ones; surplus points and shifted responses are accepted silently", "anchors": ["zkp/bulletproofs/innerproduct_proof.hpp: Verify, FastVerify", "zkp/bulletproofs/bullet_proof.hpp: Verify, FastVerify", "zkp/nizk/nizk_dlog_equality.hpp: Verify", "zkp/nizk/nizk_dlog_knowledge.hpp: Verify", "zkp/nizk/nizk_plaintext_equality.hpp: Verify", "zkp/nizk/nizk_plaintext_knowledge.hpp: Verify"]}
{"id": "C93", "title": "OT extension hides the selection bits from the sender", "statement": "For any two vectors of selection bits, what the sender of an IKNP or ALSZ extension sees (its half of the base-transfer keys after expansion, and all columns the receiver sends) occurs for equally many choices of the receiver's random columns: there is a one-to-one renaming of these that keeps the sender's view.", "quantifier": "all selection bits, columns, expanded keys, lengths", "why_tests_cant": "a distribution over all random choices cannot be established by sampling", "anchors": ["mpc/ot/iknp_ote.hpp: RandomReceive", "mpc/ot/alsz_ote.hpp: RandomReceive"]}
{"id": "C94", "title": "OT extension hides the messages that were not selected", "statement": "A receiver of an IKNP or ALSZ extension learns the message it selected at each position and nothing about the other one, even if it knows some of the others already.", "quantifier": "all messages, selection bits, lengths, random choices, and receivers that follow the messages of the protocol but compute what they like", "why_tests_cant": "tests compare the selected messages only", "anchors": ["mpc/ot/iknp_ote.hpp: Send, Receive, OnesidedSend", "mpc/ot/alsz_ote.hpp: Send, Receive, OnesidedSend", "crypto/hash.hpp: FastBlocksToBlock"]}
{"id": "C95", "title": "PSI and PSU tell the receiver the result and nothing else", "statement": "The receiver of mqRPMT-based PSI learns the common items and nothing about the sender's other items; the receiver of PSU learns the sender's items outside its own set and, of the common ones, only their number.", "quantifier": "all sets, random choices, and receivers that follow the messages of the protocol but compute what they like", "why_tests_cant": "tests compare outputs; leakage is about what can be computed from the messages", "anchors": ["mpc/pso/mqrpmt_psi.hpp: Send, Receive", "mpc/pso/mqrpmt_psu.hpp: Send, Receive"]}
{"id": "C96", "title": "Base VOLE hides A's vector from B", "statement": "The keys B receives by oblivious transfer and the corrections fit every vector u of A: there is a one-to-one renaming of the keys B does not receive that changes u to any other vector and keeps everything B receives.", "quantifier": "all lengths, vectors u, keys, and all selection bits of B (honest or not)", "why_tests_cant": "a distribution over all random choices cannot be established by sampling", "anchors": ["mpc/vole/basevole.hpp: baseVOLE_tA, baseVOLE_tB"]}
{"id": "C97", "title": "The account files record every transfer", "statement": "After Miner accepted an honest transaction, the file of the sender holds its old balance minus everything it paid, the file of each receiver its old balance plus everything paid to it in this transaction, and all other files are unchanged, whoever the receivers are.", "quantifier": "all parameters, accounts, amounts, lists of receivers (also with the sender among them, or with repetitions), contents of the account files", "why_tests_cant": "tests pay different people once each and print the objects, not the files", "anchors": ["adcp/adcp.hpp: Miner, UpdateAccount, SaveAccount, FetchAccount"]}
{"id": "C98", "title": "Private-ID tells the parties nothing about items that are not their own", "statement": "After Private-ID a party that follows the messages of the protocol can tell which identifiers of the shared list are those of its own items, but cannot test whether an item it does not hold belongs to the other party.", "quantifier": "all sets, guesses, random choices, and both parties, following the messages of the protocol but computing what they like", "why_tests_cant": "tests compare outputs; this is about what can be computed from the messages", "anchors": ["mpc/pso/mqrpmt_private_id.hpp: Send, Receive", "mpc/oprf/vole_oprf.hpp: Client, Server, Evaluate"]}
{"id": "C99", "title": "Hashing to the curve gives points that depend on the input alone and do not reveal it", "statement": "StringToECPoint and BlockToECPoint return points of the curve, never infinity: the first of a chain of hashed candidates that is an x-coordinate, with a y that is determined by the input and the curve; a block cannot be computed from its point.", "quantifier": "all curves over a prime field, strings, blocks, hash functions, correct square-root functions, numbers of attempts", "why_tests_cant": "2^128 blocks and arbitrary strings; which square root the library returns is the same in every test on one machine", "anchors": ["crypto/hash.hpp: StringToECPoint, BlockToECPoint", "crypto/ec_point.hpp: IsSquare, CreateECPoint", "pke/twisted_exponential_elgamal.hpp: Setup", "zkp/bulletproofs/bullet_proof.hpp: Setup"]}
{"id": "C100", "title": "The group of the curve the library uses is cyclic of prime order and its points have one byte string", "statement": "On NID_X9_62_prime256v1, which ECGroup_Initialize is called with, every point is k times the generator for exactly one k below the order; k times a point other than infinity is infinity exactly for multiples of the order, and such a point generates the whole group. GenRandomGenerator returns every point other than infinity for exactly one random number and never infinity. ToByteString gives different points different strings of one length; the strings operator>> accepts give points of the curve other than infinity. StringToECPoint gives such points.", "quantifier": "all points, scalars, byte strings, hash functions", "why_tests_cant": "there are about 2^256 points; that the order is prime and the cofactor 1 is a theorem about the curve, not an observation", "anchors": ["crypto/setup.hpp: CRYPTO_Initialize", "crypto/ec_group.hpp: ECGroup_Initialize", "crypto/ec_point.hpp: Mul, IsValid, IsAtInfinity, ToByteString, GenRandomGenerator, operator<<, operator>>", "crypto/hash.hpp: StringToECPoint"]}
{"id": "C101", "title": "An OKVS object can encode again", "statement": "After set_keys, every encode of a list of values for these keys gives a vector from which decode returns these values, however often encode was called on the object before.", "quantifier": "all keys, numbers of calls, lists of values, configurations", "why_tests_cant": "whether a key set has a gap row depends on the hash values; tests encode once per object", "anchors": ["mpc/okvs/paxos.hpp: encode, backfill_binary, backfill_gf128, get_FC_1"]}
{"id": "C102", "title": "An OKVS object survives WriteObject and ReadObject", "statement": "An object that was written to a file and read into a new object of the same type and security parameter encodes values for the keys of the original, and decode returns them.", "quantifier": "all keys, configurations, values, random numbers, contents of uninitialised memory", "why_tests_cant": "whether a key set has a gap row depends on the hash values, and most have none; memory errors need not show in a run", "anchors": ["mpc/okvs/paxos.hpp: WriteObject, ReadObject, encode"]}
{"id": "C103", "title": "Multiplication on Curve25519 commutes and confuses no points it has not confused before", "statement": "EC25519Point multiplication returns, for any scalar and any 32 bytes as point, the first coordinate of a multiple of the point; two multiplications can be exchanged; which points a multiplication maps to the same bytes is the same for all scalars, and a second multiplication maps different results of the first to different bytes; the strings mapped to zero are the same for all scalars. So ElGamal over Curve25519 decrypts, and set intersection and membership tests find every common item, for any two keys.", "quantifier": "all scalars, points (also non-canonical ones, points of the twist and of small order), keys, sets, messages", "why_tests_cant": "2^256 points and scalars; exceptional inputs of the ladder are not hit by random tests", "anchors": ["crypto/ec_25519.hpp: Mul, x25519_scalar_mulx", "pke/elgamal.hpp: Enc, Dec", "mpc/psi/cwprf_psi.hpp: Send, Receive", "mpc/rpmt/cwprf_mqrpmt.hpp: Server, Client"]}
{"id": "C104", "title": "An OKVS object can be given new keys", "statement": "set_keys may be called on any object of the right size, whatever set_keys, encode, decode and decode_1 calls it has seen: it stays inside the memory of the object, and encode then works for the new keys.", "quantifier": "all configurations, key sets, earlier calls", "why_tests_cant": "tests use a new object for every key set; writes behind the storage need not show in a run", "anchors": ["mpc/okvs/paxos.hpp: set_keys, set_Mtx, weight_statistic, init_hcols, decode_1, triangulate"]}
{"id": "C105", "title": "The sizes the OKVS constructors compute are usable", "statement": "For every number of items, the sizes OKVS and Baxos compute from it give a system with more columns than items and at least weight + dense columns, which the index type they chose can address, so that constructing, encoding and decoding stay inside defined behaviour; the sizes Setup of the protocols computes are of this kind.", "quantifier": "all numbers of items, weights and security parameters the library offers", "why_tests_cant": "the formulas were fitted to measurements; tests run a few sizes, and an overflow of promoted operands need not show in a run", "anchors": ["mpc/okvs/paxos.hpp: calculate_sparse_size, OKVS, set_sparse_1", "mpc/okvs/baxos.hpp: Baxos", "mpc/oprf/vole_oprf.hpp: Setup"]}
{"id": "C106", "title": "The 64-bit keys of points tell points apart", "statement": "ToUint64 gives different keys to the points a discrete-logarithm search meets, also if they were chosen by somebody who wants the search to fail: a ciphertext whose content is not in the range of the table is reported as such and not decrypted to a number.", "quantifier": "all points of the curve, bases, ranges, tradeoffs, schedules, secret keys", "why_tests_cant": "an attacker picks the points; tests search for exponents in range", "anchors": ["crypto/ec_point.hpp: ToUint64", "utility/murmurhash2.hpp: MurmurHash64A", "pke/calculate_dlog.hpp: ShanksDLOG", "pke/exponential_elgamal.hpp: Dec"]}
{"id": "C107", "title": "Naor-Pinkas oblivious transfer keeps the message that was not chosen", "statement": "Whatever public keys a receiver sends, also ones chosen after it has seen the sender's points, the two messages of a position are masked with hashes of two points, and whoever has both has the Diffie-Hellman value of the two points the sender sent.", "quantifier": "all points sent by the receiver, messages, hash functions, randomness of the sender", "why_tests_cant": "a security reduction speaks about all receivers, also ones that do not follow the protocol", "anchors": ["mpc/ot/naor_pinkas_ot.hpp: Send"]}
{"id": "C108", "title": "PSI-card-sum keeps the sender's values from the receiver", "statement": "What the receiver gets by oblivious transfer fits all value vectors of the sender: for any two vectors there is a one-to-one renaming of the masks the sender draws under which the receiver gets the same byte strings.", "quantifier": "all items, values, masks, sizes", "why_tests_cant": "secrecy compares distributions over all masks", "anchors": ["mpc/pso/mqrpmt_psi_card_sum.hpp: Send, Receive"]}
{"id": "C109", "title": "The cwPRF membership test tells the server its bits and nothing else", "statement": "What the server sees (the client's masked items in order, and its own items doubly masked in a Bloom filter or shuffled) is the same for any two lists of client items with the same bits, up to a one-to-one renaming of the client's random function and shuffle; in particular it does not tell which of its items are common.", "quantifier": "all item lists, sets, functions, keys, shuffles", "why_tests_cant": "secrecy compares distributions over all keys and shuffles", "anchors": ["mpc/rpmt/cwprf_mqrpmt.hpp: Server, Client", "include/global.hpp: global_built_in_prg", "filter/bloom_filter.hpp: Insert"]}
{"id": "C110", "title": "The filters report few keys that were never inserted", "statement": "A key that was never inserted is reported by a Bloom or cuckoo filter only with the error rate asked for in its constructor, also if the keys come from somebody who knows the code: inserting a key does not make the filter report other keys of the sender's choice.", "quantifier": "all filter sizes, numbers of hash functions, histories of calls, keys, schedules", "why_tests_cant": "2^32 continuations of every key; tests count the false positives among a few random ones", "anchors": ["utility/murmurhash3.hpp: LiteMurmurHash", "filter/bloom_filter.hpp: GenUniqueSaltVector, PlainInsert, PlainContain", "filter/cuckoo_filter.hpp: CuckooFilter, PlainInsert, PlainContain, PlainDelete"]}
{"id": "C111", "title": "Ciphertexts hide their messages, and re-randomised ciphertexts hide where they come from", "statement": "Whoever sees a public key, chooses two messages and is given an encryption of one of them tells which one it is only as well as it can tell Diffie-Hellman values from random points; this holds for ElGamal, exponential and twisted ElGamal, with one or several recipients, and for any number of ciphertexts under one key with each message chosen after the ciphertexts before. ReRand of any ciphertext, and ReEnc, give what a fresh encryption of its content gives.", "quantifier": "all groups of prime order, messages chosen depending on the key, tests without bound on their running time, ciphertexts of any origin", "why_tests_cant": "a security reduction speaks about all adversaries and about distributions over all random numbers", "anchors": ["pke/elgamal.hpp: KeyGen, Enc, ReRand", "pke/exponential_elgamal.hpp: KeyGen, Enc, ReEnc, ReRand", "pke/twisted_exponential_elgamal.hpp: KeyGen, Enc, ReEnc, ReRand"]}
{"id": "C112", "title": "cwPRF PSI tells the receiver the common items and the sender nothing", "statement": "What the receiver of the cwPRF set intersection sees is the same for any two lists of the sender with the same common items, up to a one-to-one renaming of the sender's random function; what the sender sees is the same for any two lists of the receiver of the same length.", "quantifier": "all item lists, functions, keys, truncation lengths", "why_tests_cant": "secrecy compares what can be computed from the messages of all runs; tests compare outputs", "anchors": ["mpc/psi/cwprf_psi.hpp: Send, Receive"]}
{"id": "C113", "title": "The permuted equality test tells the receiver its permuted bits and nothing else", "statement": "What the receiver of the DDH-based equality test sees depends on the sender's matrix only through the bits, moved by the sender's secret row and column permutations: it does not learn to which positions the bits belong, nor anything about entries that differ.", "quantifier": "all matrices, keys, permutations, loop orders", "why_tests_cant": "secrecy compares what can be computed from the messages of all runs; tests compare outputs", "anchors": ["mpc/peqt/peqt_from_ddh.hpp: Send, Receive"]}
{"id": "C114", "title": "The keyed function of the Diffie-Hellman protocols looks random", "statement": "With a random hash to the curve, the table of x -> k*H(x) together with that of H is told from two independent random tables only as well as Diffie-Hellman values are told from random points, for one random k below the order; so two ways of using the function that look alike for a random function look alike for it. k*P is a random point for every P other than infinity.", "quantifier": "all groups of prime order, finite sets of items, tests without bound on their running time that see both tables", "why_tests_cant": "a security reduction speaks about all adversaries and about distributions over all keys and hash functions", "anchors": ["mpc/oprf/ddh_oprf.hpp: Server, Evaluate, Client", "mpc/peqt/peqt_from_ddh.hpp: Send, Receive", "mpc/rpmt/cwprf_mqrpmt.hpp: Server, Client", "mpc/psi/cwprf_psi.hpp: Send, Receive"]}
{"id": "C115", "title": "The DDH OPRF keeps the client's inputs, the server's order and the values at other inputs", "statement": "The server's view tells nothing about the inputs of the client, the client's view nothing about the server's permutation, and the value at an input the client did not ask for looks to it like a random point, as far as Diffie-Hellman values look like random points.", "quantifier": "all inputs, permutations, keys, blindings, loop orders, tests without bound on their running time", "why_tests_cant": "secrecy compares distributions over all keys and hash functions", "anchors": ["mpc/oprf/ddh_oprf.hpp: Server, Evaluate, Client"]}
{"id": "C116", "title": "A program loads the discrete-logarithm table of its own base", "statement": "Initialize of the exponential ElGamal schemes loads the table of the base, the range and the tradeoff it was called with, whatever programs with other parameters have left their table files in the working directory: the file names of different bases differ.", "quantifier": "all bases, ranges, tradeoffs, hash functions, sequences of programs", "why_tests_cant": "a clash of file names depends on hash values and on what ran before in the same directory; tests use one base", "anchors": ["pke/calculate_dlog.hpp: GetTableFileName, BuildSaveTable, LoadTable", "utility/routines.hpp: ToHexString, FileExist", "pke/exponential_elgamal.hpp: Initialize", "pke/twisted_exponential_elgamal.hpp: Initialize"]}
{"id": "C117", "title": "Random numbers lie in the range announced, each equally often", "statement": "GenRandomBigIntBetween returns every number of [start, end) for exactly one number drawn and none outside; GenCoPrimeLessThan returns numbers below its argument that are coprime to it, each equally often, and ends; IsSafePrime accepts exactly the primes 2p+1 with p prime; the random integer vectors have entries with 0 <= r < MAX and -MAX < r < MAX, and two calls give independent vectors.", "quantifier": "all ranges, arguments, sequences of draws, correct prime tests, seeds of rand", "why_tests_cant": "frequencies over all draws; boundary values are drawn with negligible frequency; the check macro prints and goes on", "anchors": ["crypto/bigint.hpp: GenRandomBigIntLessThan, GenRandomBigIntBetween, GenCoPrimeLessThan, GCD, Div, IsSafePrime", "utility/routines.hpp: GenRandomNaturalIntegerVectorLessThan, GenRandomIntegerVectorAbsoluteLessThan"]}
{"id": "C118", "title": "Point vectors are multiplied and added coordinate by coordinate", "statement": "ECPointVectorMul returns the sum of a[i]*A[i] over all i, also cut into ranges, and is additive in both arguments; ECPointVectorAdd, ECPointVectorScalar and ECPointVectorProduct return the coordinate-wise results; vectors of different lengths end the program.", "quantifier": "all groups, vectors, lengths, cuts", "why_tests_cant": "needs induction over the length; a wrong length check shows only on wrong calls", "anchors": ["crypto/ec_point.hpp: ECPointVectorMul, ECPointVectorAdd, ECPointVectorScalar, ECPointVectorProduct"]}
{"id": "C119", "title": "One group of the input determines the value of a MurmurHash", "statement": "For MurmurHash3_x86_32, MurmurHash3_x86_128, MurmurHash3_x64_128, MurmurHash64B, MurmurHash2 and MurmurHash2A, whatever stands before and after one aligned group of the input and whatever the seed: inputs that differ in that group only have different values, and every value is taken. So the functions never collide on such inputs, and on the other hand anybody can choose the value of a key, and make as many keys with one value as wanted.", "quantifier": "all messages, positions, seeds and values", "why_tests_cant": "2^32 to 2^128 values of a group, for every prefix and suffix", "anchors": ["utility/murmurhash3.hpp: MurmurHash3_x86_32, MurmurHash3_x86_128, MurmurHash3_x64_128, MurmurHash3", "utility/murmurhash2.hpp: MurmurHash64B, MurmurHash2, MurmurHash2A"]}
{"id": "C120", "title": "The sizes chosen at set-up give the statistical security asked for", "statement": "The matrix width that Setup of the OT-extension OPRF chooses leaves the client, for each of the server's inputs, at least 128 unknown bits except with probability 2^-40 in all; the output length of this OPRF and the length to which the cwPRF set intersection cuts masked items make a chance agreement between the two parties less likely than 2^-statistical_security_parameter.", "quantifier": "all numbers of inputs Setup accepts, all security parameters, all positions of the inputs in the matrix", "why_tests_cant": "probabilities of 2^-40 cannot be sampled; the numbers in the code are constants copied from a table", "anchors": ["mpc/oprf/ote_oprf.hpp: Setup, Server, Client", "mpc/psi/cwprf_psi.hpp: Setup, Send, Receive"]}
{"id": "C121", "title": "The Bloom filter has the false positive rate its constructor announces", "statement": "With hash functions whose values are independent and uniform, a filter constructed for n elements and statistical parameter s that holds n elements reports a key that was not inserted with probability at most 2^-s; so q queries give on average at most q*2^-s false answers (the false bits of the cwPRF membership test).", "quantifier": "all numbers of elements and of hash functions with a table below 2^32 bits, all key lists", "why_tests_cant": "rates of 2^-40 cannot be sampled, and the difference between 1.44 and 1/ln 2 is in the third digit", "anchors": ["filter/bloom_filter.hpp: BloomFilter, PlainInsert, PlainContain", "mpc/rpmt/cwprf_mqrpmt.hpp: Client"]}
{"id": "C122", "title": "Keys, ciphertexts, signatures and proofs read from a file are the ones written", "statement": "Reading with >> what << wrote restores public parameters, ciphertexts (also results of homomorphic operations, and for several recipients), Schnorr signatures, sigma proofs and range proofs, into any object and whatever follows in the file; so what the verifier accepted before is accepted after, and decryption gives the same.", "quantifier": "all objects, receiving objects, contents of the file behind them and of uninitialised memory", "why_tests_cant": "the receiving object, the stack and points at infinity matter; tests read into objects they just used", "anchors": ["pke/elgamal.hpp: operator<<, operator>>", "pke/exponential_elgamal.hpp: operator<<, operator>>", "pke/twisted_exponential_elgamal.hpp: operator<<, operator>>", "signature/schnorr.hpp: operator<<, operator>>", "zkp/nizk/nizk_dlog_knowledge.hpp: operator<<, operator>>", "zkp/nizk/nizk_dlog_equality.hpp: operator<<, operator>>", "zkp/nizk/nizk_plaintext_knowledge.hpp: operator<<, operator>>", "zkp/nizk/nizk_plaintext_equality.hpp: operator<<, operator>>", "zkp/bulletproofs/bullet_proof.hpp: operator<<, operator>>"]}
{"id": "C123", "title": "A range proof tells nothing besides that the values are in range", "statement": "For all challenges there is a one-to-one correspondence between what a simulator draws and what Prove draws, such that, whenever the hash gives these challenges at the points of the simulated proof, Prove makes exactly the simulated proof; the simulator is given the commitments and the challenges, and neither values nor blinding factors.", "quantifier": "all commitments with values below 2^RANGE_LEN, blinding factors, numbers of values, challenges, transcripts, hash functions", "why_tests_cant": "compares the proofs of all runs with a simulator; a test sees single proofs", "anchors": ["zkp/bulletproofs/bullet_proof.hpp: Prove", "zkp/bulletproofs/innerproduct_proof.hpp: Prove"]}
{"id": "C124", "title": "A transaction does not tell the amount", "statement": "Whoever sees a transaction that CreateCTx made, knows the balance before it and sees all values of the hash function tells two amounts the sender could have paid apart no better than Diffie-Hellman triples from random ones: the proofs in the transaction are exactly those a simulator makes from the public part (sequence number, keys and ciphertexts) alone.", "quantifier": "all accounts in order, payable amounts (also chosen depending on the key), receiver and supervisor keys that are multiples of the sender's, encryption randomness, tests without bound on their running time", "why_tests_cant": "a security reduction speaks about all observers and about distributions over all hash functions and random numbers", "anchors": ["adcp/adcp.hpp: CreateAccount, CreateCTx, ExtractToSignMessageFromCTx", "zkp/nizk/nizk_plaintext_equality.hpp: Prove", "zkp/nizk/nizk_plaintext_knowledge.hpp: Prove", "zkp/nizk/nizk_dlog_equality.hpp: Prove", "zkp/bulletproofs/bullet_proof.hpp: Prove"]}
{"id": "C125", "title": "A new account does not tell its balance", "statement": "The balance ciphertext that CreateAccount makes hides the initial balance from everybody who does not have the secret key.", "quantifier": "all accounts, names, balances, keys, hash functions", "why_tests_cant": "a statement about all observers; a test decrypts with the right key", "anchors": ["adcp/adcp.hpp: CreateAccount"]}
{"id": "C126", "title": "A ring signature does not tell who signed", "statement": "Whoever has not the opening key and is given the parameters, the ring, the message and a signature that Sign made learns nothing about which member of the ring signed: the ciphertext of the signer's key and the one-out-of-many proof could be those of any member.", "quantifier": "all rings, members, messages, hash functions, random numbers of the signer", "why_tests_cant": "secrecy compares what can be computed from the signatures of all members; tests check that signatures verify", "anchors": ["signature/accountable_ring_sig.hpp: Sign", "zkp/nizk/nizk_enc_relation.hpp: Prove"]}
{"id": "C127", "title": "Schnorr signatures cannot be forged", "statement": "Whoever can ask for signatures on messages of their choice and for hash values, and ends with a message that was not signed and a signature that Verify accepts, can be turned into a program that computes secret keys from public keys, with a success that is about the square of the forger's divided by the number of hash values asked.", "quantifier": "all forgers (adaptive, randomised, without bound on their running time), numbers of hash values and signatures asked, keys, groups of prime order", "why_tests_cant": "a security reduction speaks about all forgers and about distributions over all hash functions and random numbers", "anchors": ["signature/schnorr.hpp: KeyGen, Sign, Verify"]}
{"id": "C128", "title": "Whoever makes accepted proofs knows a witness", "statement": "A program that asks for hash values and ends with a transcript, a statement and a proof of its choice that Verify accepts knows a witness: running it twice gives a discrete logarithm, a common discrete logarithm, or plaintext and randomness of the ciphertext, with a probability of about the square of its success divided by the number of hash values asked. False statements (different logarithms, different plaintexts for the recipients) are accepted with probability at most (number of hash values asked + 1) / number of challenges.", "quantifier": "all provers (adaptive, randomised, without bound on their running time), statements, transcripts before the proof, numbers of recipients, groups of prime order", "why_tests_cant": "a security reduction speaks about all provers and about distributions over all hash functions", "anchors": ["zkp/nizk/nizk_dlog_knowledge.hpp: Verify", "zkp/nizk/nizk_dlog_equality.hpp: Verify", "zkp/nizk/nizk_plaintext_knowledge.hpp: Verify", "zkp/nizk/nizk_plaintext_equality.hpp: Verify"]}
{"id": "C129", "title": "An accepted transaction was made with the sender's key, and says one amount to all", "statement": "A program that is given a public key (and no transaction of that account), asks for hash values and ends with a transaction from this account that VerifyCTx accepts can be turned into one that computes the secret key. A transaction whose refreshed ciphertext has not the plaintext of the named balance minus the transfer, or whose ciphertext does not give sender, receiver and supervisor the same amount, is accepted with probability at most (number of hash values asked + 2) / number of challenges. With many receivers the same holds, and the sender knows that the commitment debited equals the sum of those credited up to randomness.", "quantifier": "all senders (adaptive, randomised, without bound on their running time), parameters, numbers of receivers, scalars drawn by the verifier, groups of prime order", "why_tests_cant": "a security reduction speaks about all senders and about distributions over all hash functions", "anchors": ["adcp/adcp.hpp: VerifyCTx (one receiver), VerifyCTx (many receivers), ExtractToSignMessageFromCTx", "zkp/bulletproofs/bullet_proof.hpp: FastVerify"]}
{"id": "C130", "title": "An accepted audit says the truth, and only the key holder can pass it", "statement": "A program that asks for hash values and ends with a claim of its choice (key, transactions, figures, proof) passes AuditPolicy with an opened amount that is not the one in the ciphertext, with a rate that the two amounts do not have, or with a limit proof about something else than the sum of the amounts, with probability at most (number of hash values asked + 1) / number of challenges; an amount opened for an accepted transaction is the one paid. Whoever passes an audit for a given public key can be turned into a program that computes the secret key.", "quantifier": "all claimers (adaptive, randomised, without bound on their running time), transactions, amounts, rates, bounds, groups of prime order", "why_tests_cant": "a security reduction speaks about all claimers and about distributions over all hash functions", "anchors": ["adcp/adcp.hpp: AuditPolicy (open, rate, limit)"]}
{"id": "C131", "title": "The vector the OKVS makes tells nothing about the keys", "statement": "If the values are random, encode makes every vector of total_size entries equally often, whatever the keys are; for fixed values every vector that decodes to them comes out equally often.", "quantifier": "all key lists of one length, hash keys, values, index types, dense forms, sizes, random values", "why_tests_cant": "compares the distributions of the vectors for all key lists; a test decodes the keys it stored", "anchors": ["mpc/okvs/paxos.hpp: triangulate, encode, backfill_binary, backfill_gf128, decode", "mpc/rpmt/rrpke_mqrpmt.hpp: Server"]}
{"id": "C132", "title": "A transaction with many receivers does not tell the amounts", "statement": "Whoever sees a transaction that CreateCTx made for many receivers, knows the balance before it and sees all values of the hash function tells two lists of amounts the sender could have paid apart no better than Diffie-Hellman triples from random ones: all proofs in the transaction, also the one that the amounts add up, are exactly those a simulator makes from the public part (sequence number, keys and ciphertexts) alone.", "quantifier": "all accounts in order, numbers of receivers, payable lists of amounts (also chosen depending on the key), receiver and supervisor keys that are multiples of the sender's, encryption randomness, tests without bound on their running time", "why_tests_cant": "a security reduction speaks about all observers and about distributions over all hash functions and random numbers", "anchors": ["adcp/adcp.hpp: CreateAccount, CreateCTx (to many), ExtractToSignMessageFromCTx", "zkp/nizk/nizk_plaintext_equality.hpp: Prove", "zkp/nizk/nizk_plaintext_knowledge.hpp: Prove", "zkp/nizk/nizk_dlog_knowledge.hpp: Prove", "zkp/nizk/nizk_dlog_equality.hpp: Prove", "zkp/bulletproofs/bullet_proof.hpp: Prove"]}
{"id": "C133", "title": "An audit tells nothing besides its claim", "statement": "The proof JustifyPolicy makes for a true claim (the amount of a transaction, the rate of two amounts, bounds on the sum of several) is distributed, together with the values of the hash function, exactly as one that is made from the claim, the public key and the transactions alone, without the secret key, the amounts or the sum.", "quantifier": "all accounts, transactions, amounts, rates, bounds, numbers of transactions, tests of the auditor", "why_tests_cant": "compares a distribution with one that is made without the secret; a test can only check that the proof is accepted", "anchors": ["adcp/adcp.hpp: JustifyPolicy", "gadget/range_proof.hpp: Prove"]}
{"id": "C134", "title": "A range proof tells nothing besides the range", "statement": "The proof gadget Prove makes that the plaintext of a ciphertext lies in an interval, be it with plaintext and randomness or with the secret key, is distributed, together with the transcript and the values of the hash function, exactly as one that is made from the key, the ciphertext, the bounds and the transcript so far alone.", "quantifier": "all keys, ciphertexts, plaintexts in the interval, bounds, transcripts before the proof, tests of whoever sees it", "why_tests_cant": "compares a distribution with one that is made without the secret; a test can only check that the proof is accepted", "anchors": ["gadget/range_proof.hpp: Prove (type 1), Prove (type 2)"]}
{"id": "C135", "title": "Few bits of the membership test are wrong", "statement": "In a run of mqRPMT with the Bloom filter, the bit of an item the server does not have is wrong with probability about 2^-statistical_security_parameter: on average at most twice that many bits are wrong, all are right except with probability twice 2^-parameter times the number of foreign items, and the results of PSI, its cardinality and PSU are off by exactly the wrong bits.", "quantifier": "all sets without repetition (server with at least 1024 items), masking functions, kinds of points, parameters from 4 to 128", "why_tests_cant": "a probability of 2^-40 cannot be measured by tests, which run on a few sets", "anchors": ["mpc/rpmt/cwprf_mqrpmt.hpp: Server, Client", "filter/bloom_filter.hpp: BloomFilter, Insert, Contain"]}
{"id": "C136", "title": "Whoever makes an accepted range proof knows what it is about", "statement": "A program that asks for hash values and ends with a transcript, a ciphertext, bounds and a proof of its choice that gadget Verify accepts knows plaintext and randomness of the ciphertext (type 1), or the secret key and plaintext and randomness of the refreshed ciphertext (type 2); that the refreshed ciphertext has another plaintext than the one in the statement happens with probability at most (number of hash values asked + 1) / number of challenges.", "quantifier": "all provers (adaptive, randomised, without bound on their running time), transcripts before the proof, keys, ciphertexts, bounds, groups of prime order", "why_tests_cant": "a security reduction speaks about all provers and about distributions over all hash functions", "anchors": ["gadget/range_proof.hpp: Verify (type 1), Verify (type 2)"]}
{"id": "C137", "title": "Strings under the one-time pad and blocks in files come back", "statement": "OTP::Dec of a string returns the string OTP::Enc was given with the same key, and both agree with the overloads for byte vectors; two ciphertexts under one key tell the XOR of the messages and nothing protects a ciphertext from changes of single bits, so a key is good for one message. Blocks and vectors of blocks written to a file with operator<< are read back by operator>> in any sequence; a vector read from a file that is too short has the blocks that are in the file, zeros for those that are not, and the stream is marked as failed; a single block is then whatever the memory held.", "quantifier": "all keys, strings, sequences of blocks and vectors, lengths at which the file ends, contents of uninitialised memory", "why_tests_cant": "round-trips for all contents and lengths, effect of uninitialised memory", "anchors": ["crypto/otp.hpp: XOR, Enc, Dec for std::string", "crypto/block.hpp: operator<<, operator>>"]}
{"id": "C138", "title": "Fast 64-bit keys tell points apart", "statement": "FastToUint64 gives different points different keys, except with the small probability with which random 64-bit numbers coincide.", "quantifier": "all points of the curve, all keys of the cipher", "why_tests_cant": "the points that get the same key are not met by tests with random points", "anchors": ["crypto/ec_point.hpp: FastToUint64", "crypto/aes.hpp: FastECBEnc"]}
{"id": "C139", "title": "Containers of objects in the Bloom filter", "statement": "Contain of a container gives one bit per element in the order of the elements, 1 exactly when PlainContain reports the bytes of the element; after Insert of a container all its elements are reported, whether they are objects without pointers, strings or points of either curve, however the threads share the two levels of loops. Different points, also the point at infinity, are different keys.", "quantifier": "all filters and histories, hash functions, containers, schedules of the threads, both point encodings", "why_tests_cant": "interleavings of nested parallel loops, all points", "anchors": ["filter/bloom_filter.hpp: Insert, Contain (all overloads)"]}
{"id": "C140", "title": "The vector of the binned OKVS hides the keys", "statement": "With a generator, every vector that decode maps to the values comes out of solve equally often and every other vector never, with any numbers of bins and threads. If the values are random too, all vectors come out equally often, so that the vector tells nothing about the keys. Columns that no key hits do not depend on what the buffer of the caller held before.", "quantifier": "all configurations, hash values, values, numbers of bins and threads, all runs of the generator", "why_tests_cant": "distribution over all runs of the generator, all key sets", "anchors": ["mpc/okvs/baxos.hpp: solve, impl_solve, decode", "mpc/okvs/paxos.hpp: encode"]}
{"id": "C141", "title": "Points of Curve25519 behave as values", "statement": "Two EC25519Point objects compare equal exactly if they are the same point; the lexical comparison is a strict total order; ^ does not depend on how the threads share the 32 positions and is undone by ^ with the same point; points written to a file are read back whatever the receiving objects hold, and a short file is noticed; a new point is all zero.", "quantifier": "all points, schedules of the threads, sequences of points, file contents", "why_tests_cant": "all 2^256 values, interleavings of a parallel loop", "anchors": ["crypto/ec_25519.hpp: constructors, XOR, CompareTo, ToByteString, operator<<, operator>>, EC25519Point_Lexical_Compare"]}
{"id": "C142", "title": "Hash values of strings, blocks and points depend on all of the input and on nothing else", "statement": "StringToBlock, BytesToBlock, StringToBigInt, BlocksToBlock, ECPointToBlock, ECPointToString and ECPointToBytes return the same for the same input, and for different inputs (lists of different lengths, the point at infinity included) only if the basic hash function, shortened to the length of the result, collides on two strings that can be written down.", "quantifier": "all basic hash functions with 32-byte results, strings, lists of blocks, points of the curve, contents of uninitialised memory", "why_tests_cant": "injectivity of encodings over all inputs; effect of uninitialised memory", "anchors": ["crypto/hash.hpp: StringToBlock, BytesToBlock, StringToBigInt, ECPointToBlock, ECPointToString, ECPointToBytes, BlocksToBlock", "crypto/block.hpp: ToString", "crypto/ec_point.hpp: ToByteString"]}
