{
 "claims": [
  {
   "property": "C01",
   "status": "proved",
   "theorems": [
    "Kunlun.Bloom.bloom_no_false_negatives",
    "Kunlun.Bloom.bloom_contain_iff",
    "Kunlun.Bloom.bloom_parallel_insert_no_false_negatives",
    "Kunlun.Bloom.bloom_zero_table_is_undefined"
   ],
   "note": "Table sizes 0 and those wrapping 32 bits are excluded by hypothesis; bloom_zero_table_is_undefined shows the code divides by zero there."
  },
  {
   "property": "C02",
   "status": "proved",
   "theorems": [
    "Kunlun.Bloom.bloom_depends_on_key_set",
    "Kunlun.Bloom.bloom_monotone",
    "Kunlun.Bloom.bloom_clear_is_new",
    "Kunlun.Bloom.bloom_parallel_eq_sequential"
   ],
   "note": ""
  },
  {
   "property": "C03",
   "status": "proved",
   "theorems": [
    "Kunlun.Bloom.bloom_object_round_trip",
    "Kunlun.Bloom.bloom_file_round_trip",
    "Kunlun.Bloom.new_storable"
   ],
   "note": ""
  },
  {
   "property": "C04",
   "status": "proved",
   "theorems": [
    "Kunlun.Cuckoo.cuckoo_no_false_negatives",
    "Kunlun.Cuckoo.cuckoo_insert_failure",
    "Kunlun.Cuckoo.cuckoo_oversized_is_undefined",
    "Kunlun.Cuckoo.cuckoo_point_key_false_negative",
    "Kunlun.Cuckoo.cuckoo_insert_range",
    "Kunlun.Cuckoo.cuckoo_insert_range_single",
    "Kunlun.Cuckoo.cuckoo_insert_points_partial"
   ],
   "note": "Byte-string keys, sizes the constructor can represent. Point keys (indeterminate bytes hashed) and oversized filters are shown to fail."
  },
  {
   "property": "C05",
   "status": "proved",
   "theorems": [
    "Kunlun.Cuckoo.cuckoo_partner_involution",
    "Kunlun.Cuckoo.cuckoo_first_bucket_in_table",
    "Kunlun.Cuckoo.cuckoo_tag_nonzero",
    "Kunlun.Cuckoo.cuckoo_partner_spread",
    "Kunlun.Cuckoo.cuckoo_two_buckets"
   ],
   "note": ""
  },
  {
   "property": "C06",
   "status": "partial",
   "theorems": [
    "Kunlun.Cuckoo.cuckoo_delete_keeps_others_partial",
    "Kunlun.Cuckoo.cuckoo_delete_loses_other_key"
   ],
   "note": "The code violates the full property: counterexample with the real hash and the keys 1 and 2. Proved for deletions that do not clash in tag and buckets."
  },
  {
   "property": "C07",
   "status": "partial",
   "theorems": [
    "Kunlun.Cuckoo.cuckoo_object_round_trip_partial",
    "Kunlun.Cuckoo.cuckoo_victim_flag_not_saved",
    "Kunlun.Cuckoo.cuckoo_round_trip_loses_victim",
    "Kunlun.Cuckoo.cuckoo_one_bucket_write_overflows",
    "Kunlun.Cuckoo.cuckoo_reachable_storable"
   ],
   "note": "The code violates the full property: victim flag written at the wrong offset. Proved for reachable states without victim, at least two buckets, zeroed buffer."
  },
  {
   "property": "C08",
   "status": "proved",
   "theorems": [
    "Kunlun.Chan.channel_schedule_independent",
    "Kunlun.Chan.channel_delivers",
    "Kunlun.Chan.channel_typed_round_trip",
    "Kunlun.Chan.channel_typed_messages",
    "Kunlun.Chan.bytesVector_empty_undefined",
    "Kunlun.Chan.bytesVector_ragged_undefined",
    "Kunlun.Chan.channel_eof_never_returns"
   ],
   "note": "Any interleaving and any partial transfer sizes. Boundaries proved: empty or ragged byte vectors are undefined behaviour; a receiver whose peer stops early never returns."
  },
  {
   "property": "C09",
   "status": "proved",
   "theorems": [
    "Kunlun.Ser.serialization_round_trip",
    "Kunlun.Ser.infinity_not_restored",
    "Kunlun.Ser.vector_length_not_stored",
    "Kunlun.P256.p256_compressed_round_trip",
    "Kunlun.P256.p256_builds_differ"
   ],
   "note": "For points other than infinity and a reader that already has the right vector length; both boundaries are proved. For every point encoding, those of both builds (ECPOINT_COMPRESSED or not) on P-256 included."
  },
  {
   "property": "C10",
   "status": "proved",
   "theorems": [
    "Kunlun.BigInt.bigint_stream_round_trip",
    "Kunlun.BigInt.bigint_byteVector_round_trip",
    "Kunlun.BigInt.bigint_byteVector_injective",
    "Kunlun.BigInt.bigint_stream_injective",
    "Kunlun.BigInt.bigint_byteString_round_trip",
    "Kunlun.BigInt.bigint_sign_lost",
    "Kunlun.BigInt.bigint_oversized_writes_garbage",
    "Kunlun.BigInt.bigint_byteString_concat_ambiguous"
   ],
   "note": "Non-negative values that fit the fixed length; outside that range the failures are proved."
  },
  {
   "property": "C11",
   "status": "partial",
   "theorems": [
    "Kunlun.BigInt.mod_residue",
    "Kunlun.BigInt.modAdd_residue",
    "Kunlun.BigInt.modSub_residue",
    "Kunlun.BigInt.modMul_residue",
    "Kunlun.BigInt.modSquare_residue",
    "Kunlun.BigInt.modExp_residue",
    "Kunlun.BigInt.modInverse_residue",
    "Kunlun.BigInt.modInverse_not_coprime",
    "Kunlun.BigInt.divTrunc_spec",
    "Kunlun.BigInt.modNegate_residue_partial",
    "Kunlun.BigInt.modNegate_multiple_not_canonical",
    "Kunlun.BigInt.modNegate_congruent",
    "Kunlun.BigInt.mod_zero_modulus",
    "Kunlun.BigInt.isResidue_unique",
    "Kunlun.BigInt.nthBit_spec",
    "Kunlun.BigInt.randomBetween_range"
   ],
   "note": "The code violates the property for ModNegate of a multiple of the modulus, which returns the modulus itself; everything else is proved."
  },
  {
   "property": "C12",
   "status": "proved",
   "theorems": [
    "Kunlun.BigInt.vecModNegate_spec",
    "Kunlun.BigInt.vecModAdd_spec",
    "Kunlun.BigInt.vecModSub_spec",
    "Kunlun.BigInt.vecModProduct_spec",
    "Kunlun.BigInt.vecModScalar_spec",
    "Kunlun.BigInt.vecModInverse_spec",
    "Kunlun.BigInt.vecModInnerProduct_spec"
   ],
   "note": ""
  },
  {
   "property": "C13",
   "status": "proved",
   "theorems": [
    "Kunlun.PRG.prg_split_independent",
    "Kunlun.PRG.prg_deterministic",
    "Kunlun.PRG.prg_no_repeat",
    "Kunlun.PRG.prg_wraps",
    "Kunlun.PRG.prg_counter_mode",
    "Kunlun.PRG.prg_bytes_bits",
    "Kunlun.PRG.prg_bytes_split",
    "Kunlun.PRG.prg_bytes_split_wrong",
    "Kunlun.PRG.prg_bit_matrix",
    "Kunlun.VOLE.vole_key_is_no_root"
   ],
   "note": "Real AES-128. The splitting property is about blocks; byte requests restart at a block (prg_bytes_split_wrong). No repetition up to 2^64 blocks per seed."
  },
  {
   "property": "C14",
   "status": "proved",
   "theorems": [
    "Kunlun.AES.aes_block_round_trip",
    "Kunlun.AES.aes_fastECB_in_place",
    "Kunlun.AES.aes_fastECB_out_of_place",
    "Kunlun.AES.aes_ecb_blockwise",
    "Kunlun.AES.aes_ecb_round_trip",
    "Kunlun.AES.aes_cbc_round_trip",
    "Kunlun.AES.aes_cbc_chained",
    "Kunlun.AES.aes_cbc_empty_undefined",
    "Kunlun.AES.aes_key_schedule"
   ],
   "note": "Real AES-128 including key schedule. CBC of zero blocks is undefined behaviour (proved)."
  },
  {
   "property": "C15",
   "status": "proved",
   "theorems": [
    "Kunlun.PRG.otp_round_trip",
    "Kunlun.PRG.xor_size_mismatch"
   ],
   "note": ""
  },
  {
   "property": "C16",
   "status": "proved",
   "theorems": [
    "Kunlun.Block.block_order_irrefl",
    "Kunlun.Block.block_order_trans",
    "Kunlun.Block.block_order_total",
    "Kunlun.Block.block_compare_iff_eq",
    "Kunlun.Block.block_compareVec_iff_eq",
    "Kunlun.Block.block_compareVec_prefix",
    "Kunlun.Block.block_set_difference"
   ],
   "note": ""
  },
  {
   "property": "C17",
   "status": "partial",
   "theorems": [
    "Kunlun.Block.block_low_half",
    "Kunlun.Block.block_setBit",
    "Kunlun.Block.block_genMask",
    "Kunlun.Block.block_clearBit_partial",
    "Kunlun.Block.block_clearBit_effect",
    "Kunlun.Block.block_clearBit_wrong",
    "Kunlun.Block.block_fromSparseBytes",
    "Kunlun.Block.block_fromSparseBytes_short",
    "Kunlun.Block.block_vec_ops"
   ],
   "note": "The code violates the property for ClearBit (operands of andnot swapped: all other bits are erased). SetBit, the mask, bit packing proved."
  },
  {
   "property": "C18",
   "status": "proved",
   "theorems": [
    "Kunlun.Transpose.transpose_exact",
    "Kunlun.Transpose.transpose_twice",
    "Kunlun.Transpose.transpose_unsupported"
   ],
   "note": "Supported shapes: multiples of 8, at least 16 rows, at least 16 columns unless rows is a multiple of 16; outside, the unsigned loop bounds wrap."
  },
  {
   "property": "C19",
   "status": "proved",
   "theorems": [
    "Kunlun.FastDiv.fast_division_exact",
    "Kunlun.FastDiv.fast_division_zero_rejected",
    "Kunlun.FastDiv.fast_division_lanes",
    "Kunlun.FastDiv.doMod32_exact"
   ],
   "note": "All divisors and dividends of 64 bits, all lanes."
  },
  {
   "property": "C20",
   "status": "proved",
   "theorems": [
    "Kunlun.ElGamal.elgamal_dec_enc",
    "Kunlun.ElGamal.elgamal_reRand",
    "Kunlun.ElGamal.elgamal_reRand_enc",
    "Kunlun.ElGamal.elgamal_wrong_key",
    "Kunlun.ElGamal25519.elgamal25519_dec_enc"
   ],
   "note": "elgamal25519_dec_enc takes the X25519 multiplication as a parameter that commutes; C103 proves that it does."
  },
  {
   "property": "C21",
   "status": "proved",
   "theorems": [
    "Kunlun.ExpElGamal.exp_elgamal_dec_enc",
    "Kunlun.ExpElGamal.exp_elgamal_enc_holds",
    "Kunlun.ExpElGamal.exp_elgamal_homomorphic",
    "Kunlun.ExpElGamal.exp_elgamal_dec_holds",
    "Kunlun.ExpElGamal.exp_elgamal_multi",
    "Kunlun.ready_example"
   ],
   "note": "Even message lengths not above the group order, tables initialised once in the process, no collision of 64-bit table keys, fair schedule (structure Ready); odd lengths fail, see C23."
  },
  {
   "property": "C22",
   "status": "proved",
   "theorems": [
    "Kunlun.Twisted.twisted_dec_enc",
    "Kunlun.Twisted.twisted_enc_holds",
    "Kunlun.Twisted.twisted_decPoint_encPoint",
    "Kunlun.Twisted.twisted_homomorphic",
    "Kunlun.Twisted.twisted_dec_holds",
    "Kunlun.Twisted.twisted_multi",
    "Kunlun.Twisted.twisted_zero_key_breaks"
   ],
   "note": "Same conditions on the tables as C21; the exceptional key 0 is shown to break decryption."
  },
  {
   "property": "C23",
   "status": "partial",
   "theorems": [
    "Kunlun.Dlog.dlog_search_sound",
    "Kunlun.Dlog.dlog_search_succeeds",
    "Kunlun.Dlog.dlog_search_finds_partial",
    "Kunlun.Dlog.dlog_odd_range_misses",
    "Kunlun.Dlog.dlog_search_terminates",
    "Kunlun.Dlog.dlog_collision_gives_wrong_answer"
   ],
   "note": "The code violates the property for odd RANGE_LEN (upper half missed) and returns a wrong exponent on a 64-bit key collision; proved for even lengths without collision, for every schedule."
  },
  {
   "property": "C24",
   "status": "proved",
   "theorems": [
    "Kunlun.Schnorr.schnorr_complete",
    "Kunlun.Schnorr.schnorr_extract",
    "Kunlun.Schnorr.schnorr_accepts_iff",
    "Kunlun.Schnorr.schnorr_binds_message"
   ],
   "note": "Every hash function."
  },
  {
   "property": "C25",
   "status": "partial",
   "theorems": [
    "Kunlun.Schnorr.schnorr_response_unique_partial",
    "Kunlun.Schnorr.schnorr_malleable"
   ],
   "note": "The code violates the property: the response is not range-checked, adding the order gives a second accepted signature. Unique among responses below the order."
  },
  {
   "property": "C26",
   "status": "proved",
   "theorems": [
    "Kunlun.Pedersen.pedersen_setup",
    "Kunlun.Pedersen.pedersen_homomorphic",
    "Kunlun.Pedersen.pedersen_binding",
    "Kunlun.Pedersen.pedersen_hiding",
    "Kunlun.Pedersen.pedersen_length_not_bound",
    "Kunlun.Pedersen.pedersen_too_long_undefined"
   ],
   "note": "Message vectors of equal length not above the number of generators; trailing zeros are not bound, longer vectors are undefined behaviour (both proved)."
  },
  {
   "property": "C27",
   "status": "proved",
   "theorems": [
    "Kunlun.DLOGEquality.dlogEquality_complete",
    "Kunlun.DLOGEquality.dlogEquality_special_sound",
    "Kunlun.DLOGEquality.dlogEquality_false_statement",
    "Kunlun.DLOGEquality.dlogEquality_simulator",
    "Kunlun.DLOGEquality.dlogEquality_simulator_exact"
   ],
   "note": "Special soundness with two hash functions (rewinding)."
  },
  {
   "property": "C28",
   "status": "proved",
   "theorems": [
    "Kunlun.DLOGKnowledge.dlogKnowledge_complete",
    "Kunlun.DLOGKnowledge.dlogKnowledge_special_sound",
    "Kunlun.DLOGKnowledge.dlogKnowledge_simulator"
   ],
   "note": ""
  },
  {
   "property": "C29",
   "status": "proved",
   "theorems": [
    "Kunlun.PlaintextEquality.plaintextEquality_complete",
    "Kunlun.PlaintextEquality.plaintextEquality_special_sound",
    "Kunlun.PlaintextEquality.plaintextEquality_short_proof_undefined"
   ],
   "note": "Proofs with as many first messages as recipients; shorter ones make Verify read out of bounds (proved)."
  },
  {
   "property": "C30",
   "status": "proved",
   "theorems": [
    "Kunlun.PlaintextKnowledge.plaintextKnowledge_complete",
    "Kunlun.PlaintextKnowledge.plaintextKnowledge_special_sound",
    "Kunlun.PlaintextKnowledge.plaintextKnowledge_simulator"
   ],
   "note": ""
  },
  {
   "property": "C31",
   "status": "partial",
   "theorems": [
    "Kunlun.proof_bytes_determine_proof_partial",
    "Kunlun.plaintextEquality_bytes_drop_fields",
    "Kunlun.plaintextKnowledge_bytes_ambiguous",
    "Kunlun.ADCP.bullet_bytes_determine_proof_partial",
    "Kunlun.ADCP.bullet_bytes_ambiguous"
   ],
   "note": "The code violates the property for the two plaintext proofs (fields dropped, variable-length integers concatenated) and for range proofs (variable-length integers concatenated); proved for the two discrete-log proofs, and for range proofs of one shape (numbers of the same width)."
  },
  {
   "property": "C32",
   "status": "proved",
   "theorems": [
    "Kunlun.EncRelation.encRelation_complete",
    "Kunlun.EncRelation.encRelation_single_undefined"
   ],
   "note": "The floating-point logarithm is a parameter assumed exact; a one-ciphertext instance is undefined behaviour (proved)."
  },
  {
   "property": "C33",
   "status": "partial",
   "theorems": [
    "Kunlun.EncRelation.encRelation_special_sound_partial",
    "Kunlun.EncRelation.encRelation_forgery"
   ],
   "note": "The code violates the property: vec_G is not hashed, so every instance has an accepted proof (proved). The partial theorem is special soundness when vec_G is fixed before the challenge."
  },
  {
   "property": "C34",
   "status": "proved",
   "theorems": [
    "Kunlun.RingSig.ringSig_correct",
    "Kunlun.RingSig.ringSig_setup_correct",
    "Kunlun.RingSig.ringSig_open_always_justified",
    "Kunlun.RingSig.ringSig_justify_sound"
   ],
   "note": "Rings of size 2^m, m >= 1; the floating-point logarithm is a parameter assumed exact on the ring size."
  },
  {
   "property": "C35",
   "status": "partial",
   "theorems": [
    "Kunlun.RingSig.ringSig_special_sound_partial",
    "Kunlun.RingSig.ringSig_forgery"
   ],
   "note": "The code violates the property: a signature accepted and attributed to any chosen key is made without any secret key (proved). The partial theorem holds if vec_G, ct_vk and ct_s are fixed before the challenge."
  },
  {
   "property": "C36",
   "status": "proved",
   "theorems": [
    "Kunlun.InnerProduct.innerProduct_complete",
    "Kunlun.InnerProduct.proveLoop_spec",
    "Kunlun.InnerProduct.verify_iff",
    "Kunlun.InnerProduct.innerProduct_setup"
   ],
   "note": "For every power-of-two length below 2^64, all generators, vectors, transcripts and hash functions whose round challenges are invertible modulo the order. Verify accepts the honest proof exactly for P = g^a h^b u^<a,b>."
  },
  {
   "property": "C37",
   "status": "proved",
   "theorems": [
    "Kunlun.InnerProduct.innerProduct_fast_agrees",
    "Kunlun.InnerProduct.innerProduct_fast_scalars",
    "Kunlun.InnerProduct.fastVerify_iff",
    "Kunlun.InnerProduct.innerProduct_short_proof_undefined"
   ],
   "note": "Every proof, honest or not, with log2(VECTOR_LEN) entries in vec_L and vec_R; shorter proofs are undefined behaviour for both verifiers (separate theorem)."
  },
  {
   "property": "C38",
   "status": "proved",
   "theorems": [
    "Kunlun.Bullet.bulletproof_honest_iff",
    "Kunlun.Bullet.bulletproof_complete",
    "Kunlun.Bullet.bulletproof_fast_agrees",
    "Kunlun.Bullet.bulletproof_refuses"
   ],
   "note": "Every RANGE_LEN * n that is a power of two below 2^64, every hash whose challenges y and x_i are invertible; FastVerify for every drawn scalar, and against Verify on every proof, honest or not."
  },
  {
   "property": "C39",
   "status": "partial",
   "theorems": [
    "Kunlun.Bullet.bulletproof_determines_commitment_partial",
    "Kunlun.Bullet.bulletproof_commitment_after_proof",
    "Kunlun.Bullet.bulletproof_forgery",
    "Kunlun.Bullet.bulletproof_forgery_out_of_range"
   ],
   "note": "The code violates the property: the commitments are not hashed, so a proof can be made first and a commitment with a known out-of-range opening fitted afterwards (proved, with a concrete case). Proved: a given proof is accepted for one commitment only."
  },
  {
   "property": "C40",
   "status": "proved",
   "theorems": [
    "Kunlun.Gadget.gadget_interval_exact",
    "Kunlun.Gadget.gadget_checkRange",
    "Kunlun.Gadget.gadget_commitments_open",
    "Kunlun.Gadget.gadget_type1_honest",
    "Kunlun.Gadget.gadget_type1_complete",
    "Kunlun.Gadget.gadget_type1_rejects",
    "Kunlun.Gadget.gadget_type1_extracts",
    "Kunlun.Gadget.verify2_parts",
    "Kunlun.Gadget.gadget_type2_extracts",
    "Kunlun.Gadget.gadget_type2_complete",
    "Kunlun.Gadget.gadget_type2_refresh_sound",
    "Kunlun.Gadget.gadget_interval_sound",
    "Kunlun.Gadget.gadget_negative_left_incomplete",
    "Kunlun.Gadget.gadget_refuses",
    "Kunlun.Gadget.gadget_type1_sound",
    "Kunlun.Gadget.gadget_type2_sound"
   ],
   "note": "Bounds 0 <= LEFT <= RIGHT <= 2^n; CheckRange does not exclude negative LEFT, for which the reduction refuses some values (proved). Soundness of both gadget verifiers (type1_sound, type2_sound) with all openings extracted; the ciphertext is in the transcript before the range proof."
  },
  {
   "property": "C41",
   "status": "proved",
   "theorems": [
    "Kunlun.ADCP.adcp_create_honest",
    "Kunlun.ADCP.adcp_create_accepted",
    "Kunlun.ADCP.adcp_overspend_rejected",
    "Kunlun.ADCP.adcp_update_effect",
    "Kunlun.ADCP.adcp_miner_honest",
    "Kunlun.ADCP.adcp_miner_mismatch",
    "Kunlun.ADCP.adcp_setup_accepts"
   ],
   "note": "The discrete-logarithm tables are assumed to answer on the plaintexts met (Ready), which C23 proves of freshly built tables."
  },
  {
   "property": "C42",
   "status": "proved",
   "theorems": [
    "Kunlun.ADCP.adcp_minerAt_eq",
    "Kunlun.ADCP.adcp_step_effect",
    "Kunlun.ADCP.adcp_conservation",
    "Kunlun.ADCP.adcp_recorded",
    "Kunlun.ADCP.adcp_total_coins",
    "Kunlun.ADCP.adcp_transfer_wellformed",
    "Kunlun.ADCP.adcp_update_torn"
   ],
   "note": "Over any list of accounts and any sequence of accepted and refused transactions. adcp_update_torn shows that if the receiver's decryption ends the program, the sender's file is already debited."
  },
  {
   "property": "C43",
   "status": "partial",
   "theorems": [
    "Kunlun.ADCP.adcp_replay_accepted",
    "Kunlun.ADCP.adcp_replay_example",
    "Kunlun.ADCP.adcp_no_replay_partial"
   ],
   "note": "The code violates the property: Miner checks neither the serial number nor that the balance in the transaction is the account's. The violation is proved for every accepted transaction; the partial theorem states what a wrapper refusing seen serial numbers would give."
  },
  {
   "property": "C44",
   "status": "proved",
   "theorems": [
    "Kunlun.ADCP.adcp_supervise",
    "Kunlun.ADCP.adcp_supervise_matches",
    "Kunlun.ADCP.adcp_setup_supervise",
    "Kunlun.ADCP.adcp_reveal_balance"
   ],
   "note": ""
  },
  {
   "property": "C45",
   "status": "proved",
   "theorems": [
    "Kunlun.ADCP.adcp_open_complete",
    "Kunlun.ADCP.adcp_open_sound",
    "Kunlun.ADCP.adcp_rate_complete",
    "Kunlun.ADCP.adcp_rate_sound",
    "Kunlun.ADCP.adcp_limit_complete",
    "Kunlun.ADCP.adcp_limit_sound",
    "Kunlun.ADCP.adcp_limit_openings"
   ],
   "note": "Open, rate and limit policies are proved complete and sound. Soundness of the limit policy is knowledge soundness: accepted audits under different challenges give the sum in the interval, or an explicit relation between the generators (Gadget.Breaks). adcp_limit_openings is the part that does not use the range proof."
  },
  {
   "property": "C46",
   "status": "partial",
   "theorems": [
    "Kunlun.ADCP.adcp_many_finish",
    "Kunlun.ADCP.adcp_many_accepted",
    "Kunlun.ADCP.adcp_many_mint",
    "Kunlun.ADCP.adcp_many_mint_example",
    "Kunlun.ADCP.adcp_many_effect",
    "Kunlun.ADCP.adcp_many_honest",
    "Kunlun.ADCP.adcp_many_short_list",
    "Kunlun.ADCP.adcp_many_long_list",
    "Kunlun.ADCP.adcp_many_supervise",
    "Kunlun.ADCP.adcp_many_mismatch",
    "Kunlun.ADCP.adcp_many_parts",
    "Kunlun.ADCP.verifyMany_balance",
    "Kunlun.ADCP.adcp_many_balance_partial"
   ],
   "note": "The code violates conservation: the X component of the sender's ciphertext is not constrained by any proof, so a sender can be debited a different amount than the receivers get (adcp_many_mint). Honest behaviour is proved in full; the partial theorem proves the balance for well-formed sender ciphertexts."
  },
  {
   "property": "C47",
   "status": "partial",
   "theorems": [
    "Kunlun.ADCP.adcp_account_file",
    "Kunlun.ADCP.adcp_sp_file",
    "Kunlun.ADCP.adcp_pp_file",
    "Kunlun.ADCP.adcp_ctx_file_partial",
    "Kunlun.ADCP.adcp_ctx_file_lengths",
    "Kunlun.ADCP.adcp_ctx_file_default_unverifiable",
    "Kunlun.ADCP.adcp_many_file_loses_balance"
   ],
   "note": "Accounts, supervisor key and public parameters round-trip into any receiving object. Transactions do not: the vectors keep the receiving object's lengths and sender_balance_ct is not stored (proved), so the transaction round trip is partial."
  },
  {
   "property": "C48",
   "status": "proved",
   "theorems": [
    "Kunlun.NPOT.npot_run",
    "Kunlun.NPOT.npot_correct",
    "Kunlun.NPOT.npot_other_byte"
   ],
   "note": "Any curve group and hash; the transmitted points must not be infinity, which the wire format cannot carry. A selection byte other than 0 and 1 yields neither message (proved separately)."
  },
  {
   "property": "C49",
   "status": "proved",
   "theorems": [
    "Kunlun.OTE.iknp_correct",
    "Kunlun.OTE.iknp_onesided",
    "Kunlun.OTE.ote_bad_length",
    "Kunlun.OTE.ote_bad_base",
    "Kunlun.OTE.ote_pad_counter_mode"
   ],
   "note": "Every base length that is a nonzero multiple of 128; concrete AES generator; any hash for the keys; base-OT points not infinity."
  },
  {
   "property": "C50",
   "status": "proved",
   "theorems": [
    "Kunlun.OTE.alsz_correct",
    "Kunlun.OTE.alsz_onesided",
    "Kunlun.OTE.alsz_bytes",
    "Kunlun.OTE.alsz_onesided_bytes",
    "Kunlun.OTE.ote_bad_length",
    "Kunlun.OTE.ote_bad_base",
    "Kunlun.OTE.ote_pad_counter_mode"
   ],
   "note": "As C49; the byte versions for messages of one common length, as the channel requires."
  },
  {
   "property": "C51",
   "status": "proved",
   "theorems": [
    "Kunlun.DDHOPRF.ddh_oprf_correct"
   ],
   "note": "Any curve group, hash and key derivation; key and blinding nonzero modulo the order and hashed points not infinity (infinity cannot be sent). Any execution order of the parallel permutation loop."
  },
  {
   "property": "C52",
   "status": "partial",
   "theorems": [
    "Kunlun.OTEOPRF.oprf_agree_partial",
    "Kunlun.OTEOPRF.oprf_run",
    "Kunlun.OTEOPRF.evaluate_spec",
    "Kunlun.OTEOPRF.setup_good",
    "Kunlun.OTEOPRF.oprf_ragged_undefined",
    "Kunlun.OTEOPRF.oprf_single_input_undefined",
    "Kunlun.OTEOPRF.oprf_four_inputs_undefined",
    "Kunlun.OTEOPRF.oprf_second_call_other_keys",
    "Kunlun.OTEOPRF.oprf_evaluate_twice_differs"
   ],
   "note": "Proved for every run in which both parties use the parameter object for the first time (or equally often), set sizes 2^3 to 2^30, numbers of inputs that are multiples of BATCH_SIZE, range at most 32 bytes. The code violates the statement when Evaluate is called again with the same parameters (it advances pp.common_seed): proved with a concrete key and input. Other sizes run past the vectors or divide by zero (proved)."
  },
  {
   "property": "C53",
   "status": "partial",
   "theorems": [
    "Kunlun.VOLE.base_vole_correct",
    "Kunlun.VOLE.base_vole_single",
    "Kunlun.VOLE.vole_correct_partial",
    "Kunlun.VOLE.vole_correct_default",
    "Kunlun.VOLE.default_levels",
    "Kunlun.VOLE.encodeWith_some",
    "Kunlun.VOLE.encodeWith_map",
    "Kunlun.VOLE.fullEval_spec",
    "Kunlun.VOLE.puncEval_spec",
    "Kunlun.VOLE.vole_length_undefined",
    "Kunlun.VOLE.vole_default_undefined"
   ],
   "note": "Proved for every length below 256, and from 256 on for every length (and every t) for which the levels of the trees add up to a multiple of 128, with 48 N < 2^32 and trees of at least two leaves; every access of trees, code and OT extension is then inside its vector. The code violates the property for the other lengths: the OT extension is called with a length rounded up, on vectors that are shorter, and no run finishes (proved; with the default t this is the case exactly when the last tree is deeper than the others, for example 257 items; multiples of 64 are fine)."
  },
  {
   "property": "C54",
   "status": "partial",
   "theorems": [
    "Kunlun.VOLEOPRF.vole_oprf_correct_partial",
    "Kunlun.VOLEOPRF.vole_oprf_blocks_partial",
    "Kunlun.VOLEOPRF.oprf_run",
    "Kunlun.VOLEOPRF.dec_spec",
    "Kunlun.VOLEOPRF.vole_oprf_undefined",
    "Kunlun.VOLEOPRF.byteToBlock_blockToByte"
   ],
   "note": "Proved for every OKVS configuration, input set on which solve returns, evaluation list and all coins, over the models of VOLE, OT extension and binned OKVS. Missing: sizes for which VOLE is undefined (C53; then no run finishes, proved), and 2^bits or more keys of one bin decoded at a time (C57)."
  },
  {
   "property": "C55",
   "status": "partial",
   "theorems": [
    "Kunlun.OKVS.okvs_correct",
    "Kunlun.OKVS.okvs_randomised_partial",
    "Kunlun.OKVS.okvs_decode1_add",
    "Kunlun.OKVS.okvs_decode1_mul",
    "Kunlun.OKVS.okvs_decode_list",
    "Kunlun.OKVS.blockOps_ok",
    "Kunlun.OKVS.arrayOps_ok",
    "Kunlun.OKVS.okvs_randomised_wrong",
    "Kunlun.OKVS.okvs_randomised_wrong_gf",
    "Kunlun.OKVS.okvs_gap_wrap",
    "Kunlun.OKVS.okvs_triangulate_ends"
   ],
   "note": "Without random filling: proved for both dense forms, all index types, weights, keys and values, from the column lists up (the gf_128 form under 256 gap rows, whose number is kept in a byte; okvs_gap_wrap shows what happens otherwise). With random filling the code violates the property: the random values of free columns are left out when gap rows are solved (witnesses for both forms, with the real AES hash); proved when gap rows repeat the positions of their first row, in particular without gap rows. Decoding is additive and commutes with multiplication by a field element."
  },
  {
   "property": "C56",
   "status": "partial",
   "theorems": [
    "Kunlun.OKVS.okvs_row_distinct",
    "Kunlun.OKVS.okvs_rows_32",
    "Kunlun.OKVS.okvs_rows_all",
    "Kunlun.OKVS.okvs_dividers",
    "Kunlun.OKVS.okvs_row_u16_overflow",
    "Kunlun.OKVS.okvs_row_words"
   ],
   "note": "Proved for every hash value, weight and size that fits the index type; the 16-bit type with weight 3 needs a sparse size of at most 2^15, above that the product of two promoted 16-bit numbers overflows int for some hash values, at every such size. The vectorised code for 32 rows agrees with the scalar code for sizes below 2^63."
  },
  {
   "property": "C57",
   "status": "partial",
   "theorems": [
    "Kunlun.Baxos.baxos_correct_partial",
    "Kunlun.Baxos.baxos_correct_hash",
    "Kunlun.Baxos.slices_all",
    "Kunlun.Baxos.bin_items",
    "Kunlun.Baxos.decodeAll_spec",
    "Kunlun.Baxos.decode1_congr",
    "Kunlun.Baxos.baxos_bin_loop",
    "Kunlun.Baxos.baxos_bin_loop_endless",
    "Kunlun.Baxos.baxos_bin_loop_endless_255",
    "Kunlun.Baxos.baxos_overfull",
    "Kunlun.Baxos.binSize_too_small",
    "Kunlun.Baxos.baxos_never_solves",
    "Kunlun.Baxos.baxos_few_keys",
    "Kunlun.Baxos.baxos_solves",
    "Kunlun.Baxos.fewGaps_short",
    "Kunlun.Baxos.solve_nat",
    "Kunlun.Baxos.baxos_decode_truncated"
   ],
   "note": "Proved for every number of threads of solve and decode and every number of bins for which solve returns, without random filling (see C55), with fewer than 256 gap rows per bin in the gf_128 form and fewer than 2^bits keys of one bin per batch. The code violates the full statement: with 256 bins or more, or when the 8-bit bin counter wraps around (255 bins, 4 threads), the loop never ends; fewer than 32 keys per thread are undefined; decode of 256 keys with an 8-bit index type stores nothing; and the bin capacity is interpolated with exchanged weights, so 900000 to 2^20-1 items in 128 bins never fit (all proved)."
  },
  {
   "property": "C58",
   "status": "proved",
   "theorems": [
    "Kunlun.GF.gf_mul_comm",
    "Kunlun.GF.gf_mul_assoc",
    "Kunlun.GF.gf_mul_xor",
    "Kunlun.GF.gf_xor_mul",
    "Kunlun.GF.gf_mul_one",
    "Kunlun.GF.gf_mul_zero",
    "Kunlun.GF.gf_mul_eq_zero",
    "Kunlun.GF.gf_mul_inv",
    "Kunlun.GF.gf_inv_zero",
    "Kunlun.GF.gf_inv_unique",
    "Kunlun.GF.gf_mul_is_polynomial_product",
    "Kunlun.GF.gf_modulus_irreducible",
    "Kunlun.GF.gadget_recombines",
    "Kunlun.GF.gadget_xor",
    "Kunlun.GF.gadget_length"
   ],
   "note": "Also proved: the product is the product of polynomials modulo X^128+X^7+X^2+X+1, which is irreducible (Rabin's test evaluated by the kernel on the model of gf128_mul), and the gadget inner product of the base VOLE recombines bits."
  },
  {
   "property": "C59",
   "status": "partial",
   "theorems": [
    "Kunlun.MatInv.check_invert_correct",
    "Kunlun.MatInv.check_invert_non_bits",
    "Kunlun.MatInv.check_invert_ragged",
    "Kunlun.MatInv.check_invert_gf128_sound_partial",
    "Kunlun.MatInv.check_invert_gf128_rejects_invertible"
   ],
   "note": "check_invert: proved in full for square 0/1 matrices. check_invert_gf128: sound, refuses singular matrices, accepts all matrices with invertible upper left corners; the code violates the converse, it rejects invertible matrices whose pivot must come from an entry other than one (proved with a witness)."
  },
  {
   "property": "C60",
   "status": "proved",
   "theorems": [
    "Kunlun.DDHPEQT.permutationMap_spec",
    "Kunlun.DDHPEQT.peqt_correct",
    "Kunlun.DDHPEQT.peqt_exact"
   ],
   "note": "Keys nonzero modulo the order, hashed points not infinity. Equality of the hashed points decides the output bit; exact when hashing does not collide."
  },
  {
   "property": "C61",
   "status": "proved",
   "theorems": [
    "Kunlun.CwPRF.PSI.psi_run",
    "Kunlun.CwPRF.PSI.psi_intersection",
    "Kunlun.CwPRF.PSI.psi_correct",
    "Kunlun.CwPRF.PSI.psi_wrong_size",
    "Kunlun.CwPRF.PSI.psi_truncation_undefined",
    "Kunlun.CwPRF.PSI.psi_truncation_length"
   ],
   "note": "Any scalar multiplication with 32-byte results; TRUNCATE_LEN at most 32 (more reads past the point, proved)."
  },
  {
   "property": "C62",
   "status": "partial",
   "theorems": [
    "Kunlun.CwPRF.PSI.psi_keys_equal",
    "Kunlun.CwPRF.cwprf_dictionary_attack",
    "Kunlun.CwPRF.cwprf_items_recovered",
    "Kunlun.CwPRF.PSI.psi_run"
   ],
   "note": "The code violates the property: both parties seed their generator with the public constant fixed_seed, so both keys are the same known value, and anyone who sees the first message can test guesses for membership and, given a function that divides points by the public key, compute the items outright (proved). psi_run holds for any two keys, so independent keys would not affect the result."
  },
  {
   "property": "C63",
   "status": "proved",
   "theorems": [
    "Kunlun.CwPRF.Rpmt.rpmt_run",
    "Kunlun.CwPRF.Rpmt.rpmt_no_false_negative",
    "Kunlun.CwPRF.Rpmt.rpmt_exact",
    "Kunlun.CwPRF.Rpmt.rpmt_shuffle_run",
    "Kunlun.CwPRF.Rpmt.rpmt_25519",
    "Kunlun.CwPRF.Rpmt.rpmt_wrong_size",
    "Kunlun.CwPRF.Rpmt.rpmt_p256_shuffle"
   ],
   "note": "Both kinds of points, with and without the Bloom filter. With the filter the bit is 1 exactly if the filter positions are covered; exact when there is no false positive among the items asked."
  },
  {
   "property": "C64",
   "status": "proved",
   "theorems": [
    "Kunlun.PSO.psi_run",
    "Kunlun.PSO.psi_correct",
    "Kunlun.PSO.psi_small_sets_refused",
    "Kunlun.PSO.psi_25519"
   ],
   "note": "For any mqRPMT that delivers bits, and for the default build with parameters from Setup. Fewer than 128 sender items make both parties end with an error (proved)."
  },
  {
   "property": "C65",
   "status": "proved",
   "theorems": [
    "Kunlun.PSO.psu_run",
    "Kunlun.PSO.union_exact",
    "Kunlun.PSO.psu_bytes_run",
    "Kunlun.PSO.psu_25519"
   ],
   "note": "A false positive of the filter loses that item (last part of union_exact); otherwise exactly the union. Byte strings of one common length, any number of items."
  },
  {
   "property": "C66",
   "status": "partial",
   "theorems": [
    "Kunlun.PSO.card_correct",
    "Kunlun.PSO.card_is_intersection_size",
    "Kunlun.PSO.card_25519",
    "Kunlun.PSO.card_sum_run",
    "Kunlun.PSO.card_sum_correct_partial",
    "Kunlun.PSO.card_sum_small_receiver",
    "Kunlun.PSO.card_sum_large_receiver",
    "Kunlun.PSO.card_sum_wrong_example",
    "Kunlun.PSO.card_sum_bound_64"
   ],
   "note": "Cardinality is proved for any sizes. The sum is proved for equal sizes; the code violates it otherwise: with a smaller receiver the result is off by masked values, with a larger one the receiver reads out of range and no run finishes (both proved). LOG_SUM_BOUND is below 64 there; from 64 on, which Setup accepts, the conversion of pow(2, LOG_SUM_BOUND) is undefined (card_sum_bound_64)."
  },
  {
   "property": "C67",
   "status": "proved",
   "theorems": [
    "Kunlun.PSO.private_id_run",
    "Kunlun.PSO.private_id_exact",
    "Kunlun.OTEOPRF.oprf_for_private_id",
    "Kunlun.VOLEOPRF.vole_oprf_for_private_id"
   ],
   "note": "For any OPRF whose client output is the evaluation of the server's key; the OT-extension OPRF and the VOLE OPRF (the default) are shown to be such."
  },
  {
   "property": "C68",
   "status": "proved",
   "theorems": [
    "Kunlun.Murmur.murmur_incremental",
    "Kunlun.Murmur.murmur_split_irrelevant",
    "Kunlun.Murmur.murmur_neutral",
    "Kunlun.Murmur.murmur_aligned"
   ],
   "note": "Messages below 2^31 bytes (int lengths)."
  },
  {
   "property": "C69",
   "status": "proved",
   "theorems": [
    "Kunlun.Poly.polyMul_exact",
    "Kunlun.Poly.polyMul_coeff",
    "Kunlun.Poly.polyMul_reduced",
    "Kunlun.Poly.polyProd_exact",
    "Kunlun.Poly.evalPoly_exact",
    "Kunlun.Poly.evalPoly_polyMul",
    "Kunlun.Poly.polyMul_empty_undefined"
   ],
   "note": "Non-empty coefficient vectors; for two empty vectors the size computation wraps (proved)."
  },
  {
   "property": "C70",
   "status": "proved",
   "theorems": [
    "Kunlun.Word.upperpower2_least",
    "Kunlun.Word.upperpower2_out_of_range",
    "Kunlun.Word.isPowerOfTwo_iff",
    "Kunlun.Word.hasvalue16_iff",
    "Kunlun.Word.hasvalue12_iff",
    "Kunlun.Word.hasvalue8_iff",
    "Kunlun.Word.hasvalue4_iff"
   ],
   "note": "upperpower2 wraps to 0 for 0 and above 2^31 (proved)."
  },
  {
   "property": "C71",
   "status": "proved",
   "theorems": [
    "Kunlun.Bloom.bloom_salts_distinct",
    "Kunlun.Bloom.bloom_salts_repeat_for_seed_zero"
   ],
   "note": "Holds for every constructed filter; for a foreign seed (0) two of five salts coincide."
  },
  {
   "property": "C72",
   "status": "partial",
   "theorems": [
    "Kunlun.ElGamal.elgamal_keys_fresh_partial",
    "Kunlun.ElGamal25519.elgamal25519_secret_is_public"
   ],
   "note": "The code violates the property in its default configuration: Setup, KeyGen and Enc all draw from the same fixed seed, so the secret key equals pp.g in every run; the theorem gives the decryption without the key."
  },
  {
   "property": "C73",
   "status": "partial",
   "theorems": [
    "Kunlun.Dlog.dlog_second_table_breaks_first",
    "Kunlun.Dlog.dlog_search_finds_partial"
   ],
   "note": "The code violates the property: loading a second table does not clear the global map, and decryption for the first base then goes wrong (concrete witness). A single table per process is correct."
  },
  {
   "property": "C74",
   "status": "proved",
   "theorems": [
    "Kunlun.NPOT.npot_receiver_hidden"
   ],
   "note": ""
  },
  {
   "property": "C75",
   "status": "proved",
   "theorems": [
    "Kunlun.Proto.proto_outcome_unique",
    "Kunlun.Proto.proto_result_unique"
   ],
   "note": "Processes that exchange messages over two FIFO connections (stream channel, C08)."
  },
  {
   "property": "C76",
   "status": "proved",
   "theorems": [
    "Kunlun.Hash.hash_block_injective",
    "Kunlun.Hash.hash_block_invertible",
    "Kunlun.Hash.dedicated_injective",
    "Kunlun.Hash.blockToPoint_fuel"
   ],
   "note": "Also proved: the map is invertible with a public key, so it is not one-way."
  },
  {
   "property": "C77",
   "status": "partial",
   "theorems": [
    "Kunlun.Hash.fastBlocksToBlock_collision",
    "Kunlun.Hash.fastBlocksToBlock_collision_example",
    "Kunlun.Hash.fastBlocksToBlock_injective_partial",
    "Kunlun.Hash.cbcAes_blocks",
    "Kunlun.Hash.cbcAes_ragged_undefined"
   ],
   "note": "The code violates the property: CBC-MAC with a public key has explicit collisions. Partial: injective when all blocks but one are fixed."
  },
  {
   "property": "C78",
   "status": "partial",
   "theorems": [
    "Kunlun.OTEOPRF.oprf_client_knows_key",
    "Kunlun.OTEOPRF.oprf_key_not_random",
    "Kunlun.OTEOPRF.oprf_rows_reveal_inputs"
   ],
   "note": "The code violates the property: selection bits and seeds are all drawn from the public constant fixed_seed. Proved: the key is a function of public constants and the client's inputs, and each row sent by the client reveals where its inputs are."
  },
  {
   "property": "C79",
   "status": "partial",
   "theorems": [
    "Kunlun.VOLEOPRF.vole_oprf_client_gets_key",
    "Kunlun.VOLEOPRF.oprf_run",
    "Kunlun.VOLEOPRF.encode0_zero",
    "Kunlun.VOLEOPRF.solve_zero",
    "Kunlun.VOLEOPRF.encode_zero"
   ],
   "note": "The code violates the property in every run: the client encodes zeros without random filling, so its OKVS vector is zero (encode0_zero, for every configuration, hash key and set), Delta cancels, and the client's vector C is the server's key."
  },
  {
   "property": "C80",
   "status": "partial",
   "theorems": [
    "Kunlun.Cuckoo.cuckoo_file_header_partial",
    "Kunlun.Cuckoo.cuckoo_file_never_restores",
    "Kunlun.Cuckoo.cuckoo_file_overflows",
    "Kunlun.Cuckoo.cuckoo_file_loses_key",
    "Kunlun.Cuckoo.readFile_writeFile"
   ],
   "note": "The code violates the property for every filter: ReadObject uses 'fin >> bucket_table.data()', which is formatted extraction up to white space. No reachable filter is restored, tables without white-space bytes are overrun, and a concrete inserted key is lost. The partial theorem: all members but the table come back."
  },
  {
   "property": "C81",
   "status": "partial",
   "theorems": [
    "Kunlun.RrPke.rrpke_correct_partial",
    "Kunlun.RrPke.rrpke_finishes",
    "Kunlun.RrPke.rrpke_run",
    "Kunlun.RrPke.ofArr_toArr",
    "Kunlun.RrPke.rrpke_false_positive",
    "Kunlun.RrPke.rrpke_client_learns",
    "Kunlun.RrPke.rrpke_small_sets_undefined",
    "Kunlun.RrPke.solve8",
    "Kunlun.RrPke.rrpke_view",
    "Kunlun.RrPke.rrpke_hides_key"
   ],
   "note": "Proved for every configuration, key set and all coins for which solve returns: every common key gets bit 1, and any bit is 1 exactly when the client's decoded ciphertext decrypts to the message. The server sees the decoded ciphertexts re-randomised, so for a common key the client's random number hides which one it is (rrpke_hides_key). The code violates the rest: the OKVS is encoded without random filling, so with the sizes, seed and eight threads the code uses for 256 keys a key that is not in the server's set decodes to the ciphertext of another key, for all coins (rrpke_false_positive), and absent keys decode to zero, which the client sees (rrpke_client_learns). With fewer than 2^7 keys, or fewer than 32 per thread, no execution is defined."
  },
  {
   "property": "C82",
   "status": "proved",
   "theorems": [
    "Kunlun.Schnorr.schnorr_challenges_independent",
    "Kunlun.Schnorr.schnorr_related_key",
    "Kunlun.DLOGEquality.dlogEquality_challenges_independent",
    "Kunlun.DLOGKnowledge.dlogKnowledge_challenges_independent",
    "Kunlun.PlaintextKnowledge.plaintextKnowledge_challenges_independent",
    "Kunlun.PlaintextEquality.plaintextEquality_challenges_independent",
    "Kunlun.EncRelation.encRelation_challenges_independent"
   ],
   "note": "Boundary: Schnorr does not hash the public key; schnorr_related_key turns a signature into one under a shifted key. For the one-out-of-many proof only the commitments are bound; that it hashes neither vec_G nor the statement, and that the range proof does not hash the commitments, is under C33 and C39."
  },
  {
   "property": "C83",
   "status": "proved",
   "theorems": [
    "Kunlun.Schnorr.schnorr_simulated",
    "Kunlun.DLOGEquality.dlogEquality_simulated",
    "Kunlun.DLOGKnowledge.dlogKnowledge_simulated",
    "Kunlun.PlaintextKnowledge.plaintextKnowledge_simulated",
    "Kunlun.PlaintextEquality.plaintextEquality_simulated"
   ],
   "note": "Exact simulation for each challenge; existence and uniqueness of the nonces."
  },
  {
   "property": "C84",
   "status": "proved",
   "theorems": [
    "Kunlun.Bullet.bulletproof_hides_values"
   ],
   "note": "Perfect witness indistinguishability of the Fiat-Shamir prover as written, for hash functions that return no multiple of the order. The group is assumed cyclic with generator g and h not zero."
  },
  {
   "property": "C85",
   "status": "partial",
   "theorems": [
    "Kunlun.ADCP.adcp_message_binds",
    "Kunlun.ADCP.adcp_message_binds_proofs",
    "Kunlun.ADCP.adcp_serial_bound_partial",
    "Kunlun.ADCP.adcp_many_message_binds",
    "Kunlun.ADCP.adcp_many_serial_bound_partial",
    "Kunlun.ADCP.adcp_malleable"
   ],
   "note": "Binding of serial number, keys, balance and transfer is proved. The last sentence of the property fails: the responses of the transfer proof are neither hashed nor part of the message (proofToByteString drops them), so adding the order to them gives a different accepted transaction (adcp_malleable)."
  },
  {
   "property": "C86",
   "status": "proved",
   "theorems": [
    "Kunlun.InnerProduct.innerProduct_sound"
   ],
   "note": "Explicit extractor (wit, rels); 4^k answers. About the interactive argument: P is fixed before the challenges."
  },
  {
   "property": "C87",
   "status": "proved",
   "theorems": [
    "Kunlun.Bullet.bulletproof_sound"
   ],
   "note": "Explicit extractor (opC, value, allRels). The statement is about the interactive proof, in which the commitments are fixed first; in the code the commitments are not hashed, which is why C39 fails for the proof as a whole (bulletproof_forgery)."
  },
  {
   "property": "C88",
   "status": "proved",
   "theorems": [
    "Kunlun.ADCP.adcp_no_overdraft",
    "Kunlun.ADCP.adcp_range_challenge_binds",
    "Kunlun.ADCP.adcp_amount_extracted",
    "Kunlun.ADCP.adcp_rest_extracted",
    "Kunlun.ADCP.adcp_key_extracted"
   ],
   "note": "One receiver. The named balance is the one in the transaction: that Miner does not compare it with the account is C43. With many receivers the property fails (C46, adcp_many_mint). Conclusion up to an explicit non-trivial relation between the generators."
  },
  {
   "property": "C89",
   "status": "proved",
   "theorems": [
    "Kunlun.InnerProduct.innerProduct_verify_queries",
    "Kunlun.InnerProduct.innerProduct_prove_queries",
    "Kunlun.InnerProduct.innerProduct_round_binds",
    "Kunlun.InnerProduct.innerProduct_rounds_apart",
    "Kunlun.Bullet.bulletproof_verify_queries",
    "Kunlun.Bullet.bulletproof_prove_queries",
    "Kunlun.Bullet.bulletproof_challenge_binds"
   ],
   "note": "The commitments of the range proof are not among the hashed messages; they are bound only if the caller put them into the transcript (C39, C88). taux, mu and tx are hashed nowhere."
  },
  {
   "property": "C90",
   "status": "partial",
   "theorems": [
    "Kunlun.ParamFiles.npot_file",
    "Kunlun.ParamFiles.ote_file",
    "Kunlun.ParamFiles.cwpsi_file",
    "Kunlun.ParamFiles.rpmt_file",
    "Kunlun.ParamFiles.pso_file_partial",
    "Kunlun.ParamFiles.sum_file_partial",
    "Kunlun.ParamFiles.id_file_partial",
    "Kunlun.ParamFiles.otePrf_file_partial",
    "Kunlun.ParamFiles.ddh_file_lost",
    "Kunlun.ParamFiles.ddh_setup_lost",
    "Kunlun.ParamFiles.pso_file_lost"
   ],
   "note": "Proved for Naor-Pinkas OT, both OT extensions, cwPRF PSI and both mqRPMT protocols; for the set operations unless the low byte of the statistical security parameter is a decimal digit, for the OTE OPRF unless the seed starts with one (in Setup it does not). The code violates the rest: in namespaces that declare their own operator<< without using that of Serialization, numbers are written in decimal without separators. The DDH OPRF reads 32, 32 back as 3232 and an uninitialised number (ddh_setup_lost); with statistical parameter 48 to 57 PSI, PSU, cardinality and private-ID read BASE_LEN 1280 to 1289 and everything after it from the wrong place (pso_file_lost). The choice of the operator is C++ name lookup, read off the headers."
  },
  {
   "property": "C91",
   "status": "proved",
   "theorems": [
    "Kunlun.Omp.parallel_eq_sequential",
    "Kunlun.Omp.parallel_cells",
    "Kunlun.Omp.parallel_ends",
    "Kunlun.Omp.omp_xor",
    "Kunlun.Omp.omp_inPlace",
    "Kunlun.Omp.omp_ecb",
    "Kunlun.Omp.omp_zip",
    "Kunlun.Omp.omp_packing",
    "Kunlun.Omp.omp_plain_or_loses"
   ],
   "note": "Loops with shared cells are treated where they occur: Bloom filter (C01, C02, atomic updates), discrete logarithm (C23), DDH OPRF permutation (C51). omp_plain_or_loses shows that the condition on the cells is needed."
  },
  {
   "property": "C92",
   "status": "partial",
   "theorems": [
    "Kunlun.InnerProduct.innerproduct_points_partial",
    "Kunlun.InnerProduct.innerproduct_extra_points",
    "Kunlun.Bullet.bulletproof_points_partial",
    "Kunlun.Bullet.bulletproof_extra_points",
    "Kunlun.Bullet.bulletproof_scalars_malleable",
    "Kunlun.DLOGEquality.response_unique_partial",
    "Kunlun.DLOGEquality.response_malleable",
    "Kunlun.DLOGKnowledge.response_unique_partial",
    "Kunlun.DLOGKnowledge.response_malleable",
    "Kunlun.PlaintextKnowledge.responses_unique_partial",
    "Kunlun.PlaintextKnowledge.responses_malleable",
    "Kunlun.PlaintextEquality.responses_unique_partial",
    "Kunlun.PlaintextEquality.responses_malleable"
   ],
   "note": "Proved: bounds on the numbers of points, and one response below the order to fixed first messages of a sigma protocol. The code violates the rest: up to log2(n) surplus L points, surplus first messages of the plaintext equality proof and multiples of the order added to any response leave the verifiers' answers and transcripts unchanged."
  },
  {
   "property": "C93",
   "status": "proved",
   "theorems": [
    "Kunlun.OTE.IKNP.iknp_hides_bits",
    "Kunlun.OTE.IKNP.encCol_eq",
    "Kunlun.OTE.ALSZ.alsz_hides_bits",
    "Kunlun.OTE.ALSZ.column_eq"
   ],
   "note": "Perfect hiding for uniform columns and pads; in the code the pads are PRG expansions of the base-transfer keys and the base transfer is taken to give the sender one key of each pair (C48, C74)."
  },
  {
   "property": "C94",
   "status": "partial",
   "theorems": [
    "Kunlun.OTE.ote_single_hidden_partial",
    "Kunlun.OTE.iknp_one_message_opens_all",
    "Kunlun.OTE.alsz_one_message_opens_all",
    "Kunlun.OTE.onesided_one_item_opens_all"
   ],
   "note": "Holds for one ciphertext alone. The code violates the rest: with BASE_LEN 128 the keys of position i are AES(q_i) and AES(q_i + s) under the public all-zero key, without tweak or feed-forward; one known message that was not selected gives s and with it all messages of the sender, with the bytes of an ordinary run."
  },
  {
   "property": "C95",
   "status": "partial",
   "theorems": [
    "Kunlun.PSO.psu_one_common_partial",
    "Kunlun.PSO.psi_one_item_opens_all",
    "Kunlun.PSO.psu_candidates",
    "Kunlun.PSO.psu_single_item"
   ],
   "note": "The code violates the property through C94. In PSU the messages not selected are the common items, which the receiver has: with its own items as guesses it computes at most |Y| lists of which one is the sender's whole list, and drops those whose unselected entries are not its own. In PSI one known item of the sender outside the receiver's set gives all. What holds: with exactly one common item these computations do not tell which. mqRPMT is a hypothesis here (exact bits)."
  },
  {
   "property": "C96",
   "status": "proved",
   "theorems": [
    "Kunlun.VOLE.base_vole_hides_u"
   ],
   "note": "Perfect hiding with an ideal oblivious transfer (B gets one key of each pair); the transfer of the code is C94."
  },
  {
   "property": "C97",
   "status": "partial",
   "theorems": [
    "Kunlun.ADCP.adcp_ledger_many_partial",
    "Kunlun.ADCP.adcp_ledger_one_partial",
    "Kunlun.ADCP.adcp_ledger_self_pay",
    "Kunlun.ADCP.adcp_ledger_twice",
    "Kunlun.ADCP.adcp_ledger_self_pay_example",
    "Kunlun.ADCP.adcp_ledger_twice_example",
    "Kunlun.ADCP.adcp_ledger_refused",
    "Kunlun.ADCP.adcp_ledger_many_refused"
   ],
   "note": "Holds when sender and receivers are all different. The code violates the rest: every entry of vec_Acct_receiver is an object of its own and the files are written from these in turn, so a sender that pays itself as last receiver ends with its old balance plus the amount (nothing is debited), and a receiver listed twice loses the first amount. File contents are taken to be the account that was saved (C47)."
  },
  {
   "property": "C98",
   "status": "partial",
   "theorems": [
    "Kunlun.VOLEOPRF.vole_private_id_looks_up",
    "Kunlun.VOLEOPRF.vole_oprf_leaks",
    "Kunlun.PSO.private_id_receiver_looks_up",
    "Kunlun.PSO.private_id_sender_looks_up"
   ],
   "note": "The code violates the property: with the VOLE OPRF, which Private-ID uses, each party ends with both keys (C79), so for any list of guesses it finds those that are in the union; those it does not hold itself are the other party's. Proved for both parties, for every OPRF that gives its client the key, and for the VOLE OPRF from beginning to end. The membership test is a hypothesis (exact bits), as is that identifiers do not collide."
  },
  {
   "property": "C99",
   "status": "partial",
   "theorems": [
    "Kunlun.Hash.string_to_point_first",
    "Kunlun.Hash.string_to_point_sound",
    "Kunlun.Hash.string_to_point_unique_partial",
    "Kunlun.Hash.string_to_point_root_decides",
    "Kunlun.Hash.block_to_point_sound",
    "Kunlun.Hash.block_to_point_inverted"
   ],
   "note": "Points of the curve, first candidate, never infinity: proved. The code violates the rest: the branch of StringToECPoint that was to fix the sign of y is overwritten, so the point (and with it the generator h) depends on which root BN_mod_sqrt returns, for every input; unique up to sign is proved. BlockToECPoint iterates a permutation under a public key, so the block is in a list of at most two candidates per attempt. SHA/SM3, BN_mod_sqrt and point decompression are parameters with their documented meaning."
  },
  {
   "property": "C100",
   "status": "proved",
   "theorems": [
    "Kunlun.P256.p256_unique_scalar",
    "Kunlun.P256.p256_no_small_order",
    "Kunlun.P256.p256_random_point",
    "Kunlun.P256.p256_bytes_encode",
    "Kunlun.P256.p256_decoded",
    "Kunlun.P256.p256_compressed_decoded",
    "Kunlun.P256.p256_string_to_point"
   ],
   "note": "No assumption about the group: Mathlib's Weierstrass group law over ZMod p with the published constants; both primes by Lucas certificates, the order of the generator by double-and-add in the kernel, the cofactor by counting. operator>> accepts the hybrid form besides the one operator<< writes (p256_decoded says exactly which strings). Trusted: the constants, that OpenSSL computes this group law, and the documented byte forms of EC_POINT_point2oct/oct2point and BN_mod_sqrt."
  },
  {
   "property": "C101",
   "status": "partial",
   "theorems": [
    "Kunlun.OKVS.okvs_encode_again_partial",
    "Kunlun.OKVS.okvs_encode_again_wrong",
    "Kunlun.OKVS.okvs_encode_again_wrong_gf"
   ],
   "note": "Proved for key sets without gap rows, any number of calls. The code violates the rest: in the binary form the values of the gap rows are only looked at while gap_cols is empty, so that the second encode ignores them (for every object with a gap row); in the gf_128 form FC_1 is appended to and cancels (concrete case)."
  },
  {
   "property": "C102",
   "status": "partial",
   "theorems": [
    "Kunlun.OKVS.okvs_file_partial",
    "Kunlun.OKVS.okvs_file_gap_rows_unreadable",
    "Kunlun.OKVS.okvs_file_gap_rows_unwritable",
    "Kunlun.OKVS.okvs_file_unencoded"
   ],
   "note": "Proved for objects without gap rows that have encoded before they were written, with and without random filling afterwards. The code violates the rest: with a gap row, writing reads past gap_cols (gf_128) or reading writes past gap_rows_first_row (binary); an object written before its first encode never returns from encode after it was read. calculate_sparse_size (floating point) is a function parameter."
  },
  {
   "property": "C103",
   "status": "proved",
   "theorems": [
    "Kunlun.X25519.x25519_multiple",
    "Kunlun.X25519.x25519_commutes",
    "Kunlun.X25519.x25519_collisions",
    "Kunlun.X25519.x25519_injective",
    "Kunlun.X25519.x25519_ignores",
    "Kunlun.X25519.x25519_zero",
    "Kunlun.X25519.elgamal_x25519",
    "Kunlun.X25519.elgamal_x25519_functions",
    "Kunlun.X25519.psi_x25519",
    "Kunlun.X25519.rpmt_x25519"
   ],
   "note": "x25519_scalar_mulx is a symbol of OpenSSL, not part of the repository: modelled as the function of RFC 7748 in the order of steps OpenSSL uses. The group law is Mathlib's, over an algebraic closure of ZMod (2^255-19); all primes by Lucas certificates, the orders of curve and twist by explicit points and counting. With TRUNCATE_LEN below 32 (the default) psi_x25519 gives every common item; that there are no others needs the hypothesis of C61."
  },
  {
   "property": "C104",
   "status": "partial",
   "theorems": [
    "Kunlun.OKVS.okvs_set_keys_fresh_partial",
    "Kunlun.OKVS.okvs_set_keys_overflow",
    "Kunlun.OKVS.okvs_set_keys_twice",
    "Kunlun.OKVS.okvs_set_keys_after_encode",
    "Kunlun.OKVS.okvs_decode_1_first"
   ],
   "note": "Proved for objects whose columns were not counted before (new ones, also after decode). The code violates the rest: col_weights is never set back, so after an earlier set_keys or decode_1 the next set_keys writes behind the storage (for key sets that share a key, or whenever an earlier column lies below a new one), and after encode it reads outside weight_set for all keys. Build without assertions; with them the program stops."
  },
  {
   "property": "C105",
   "status": "partial",
   "theorems": [
    "Kunlun.OKVS.okvs_size_room",
    "Kunlun.OKVS.okvs_size_fits_partial",
    "Kunlun.OKVS.okvs_size_overflow",
    "Kunlun.OKVS.vole_oprf_setup_overflow",
    "Kunlun.OKVS.size_2_15",
    "Kunlun.OKVS.vole_oprf_2_15_key",
    "Kunlun.OKVS.okvs_weight_2_small",
    "Kunlun.OKVS.rrpke_sizes"
   ],
   "note": "Room for every weight; fitting index types for weight 3, the one the protocols use, with security parameter 10 to 40 outside 25001..53999 items per bin. The code violates the rest: from 27000 to 52000 items per bin the 16-bit index type is chosen for more than 2^15 columns, where set_sparse_1 multiplies promoted 16-bit numbers beyond int (the default set-up of the VOLE OPRF for 2^15 to 2^22 items is of this kind); the vectorised set_sparse_32 is not affected, so only the rows after the last full group of 32 are, and usual compilers wrap harmlessly. With weight 2 and up to four items g_limit is negative before conversion to an unsigned type. The formulas are modelled with exact reals instead of doubles."
  },
  {
   "property": "C106",
   "status": "partial",
   "theorems": [
    "Kunlun.Murmur64.murmur64_word",
    "Kunlun.Murmur64.murmur64_tail",
    "Kunlun.Murmur64.key_neg",
    "Kunlun.Murmur64.p256_keys_collide",
    "Kunlun.Murmur64.p256_search_wrong",
    "Kunlun.Murmur64.p256_decryption_wrong"
   ],
   "note": "Proved: strings of one length that differ in one aligned word only or only behind the last one, and a point and its negative, have different keys. The code violates the rest: the keyed hash with its public salt can be inverted word by word; two explicit points of P-256 have the key of infinity, which is in every table, so for every base, range and tradeoff the search reports an exponent for both (the same one), and ciphertexts of them made from the public key alone are decrypted to one number."
  },
  {
   "property": "C107",
   "status": "proved",
   "theorems": [
    "Kunlun.NPOT.npot_both_keys_dh",
    "Kunlun.NPOT.npot_other_key"
   ],
   "note": "A reduction: that the Diffie-Hellman value is hard to compute and that the hash of a point masks like a random function are assumptions outside the model. Points other than infinity (the connection cannot carry it)."
  },
  {
   "property": "C108",
   "status": "proved",
   "theorems": [
    "Kunlun.PSO.card_sum_values_hidden",
    "Kunlun.PSO.CardSum.send_eq_head",
    "Kunlun.PSO.CardSum.receive_eq_curious"
   ],
   "note": "For an oblivious transfer that gives the receiver only what it selects (C94 is about the transfer itself)."
  },
  {
   "property": "C109",
   "status": "partial",
   "theorems": [
    "Kunlun.CwPRF.Rpmt.rpmt_view_hides",
    "Kunlun.CwPRF.Rpmt.rpmt_view",
    "Kunlun.CwPRF.Rpmt.rpmt_view_shuffle",
    "Kunlun.CwPRF.Rpmt.rpmt_server_view_ddh",
    "Kunlun.CwPRF.Rpmt.rpmt_server_view_shuffle_ddh",
    "Kunlun.CwPRF.Rpmt.rpmt_client_view",
    "Kunlun.CwPRF.Rpmt.rpmt_client_view_ddh",
    "Kunlun.CwPRF.Rpmt.server_from_view",
    "Kunlun.CwPRF.Rpmt.serverShuffle_from_view",
    "Kunlun.CwPRF.Rpmt.rpmt_shuffles_missing",
    "Kunlun.CwPRF.Rpmt.rpmt_25519_guess"
   ],
   "note": "Proved for a random function in place of the client's keyed one and, with C114, under the decisional Diffie-Hellman assumption for a random hash to a group of prime order (the build without Curve25519), for both parties; uniform shuffles, items without repetition. The code violates the rest: the generator behind std::shuffle has a 32-bit seed, so from 13 items on some shuffles never occur; in the default build the client's key is a public constant and the server can test any guess for the client's items (see also C62). The build with the Bloom filter, which is the default, needs no shuffle."
  },
  {
   "property": "C110",
   "status": "partial",
   "theorems": [
    "Kunlun.Cuckoo.cuckoo_false_positive_rate_partial",
    "Kunlun.Cuckoo.cuckoo_small_rate_partial",
    "Kunlun.Cuckoo.cuckoo_false_positives",
    "Kunlun.Bloom.bloom_false_positive_rate_partial",
    "Kunlun.Bloom.bloom_one_position",
    "Kunlun.Bloom.bloom_false_positives",
    "Kunlun.LiteMurmur.lite_ending_ignored"
   ],
   "note": "Proved: for keys that continue any prefix by a random word, a cuckoo filter reports at most 4*2^(16-e) of the 2^32 words per stored tag (fewer than one in 2^11 with up to 2^16 buckets), a Bloom filter at most 2^32/size+1 per set bit. The code violates the rest: the hash and its salts are public and a word of the hash can be solved for, so every key of at least 8 bytes has 2^32-1 others that every cuckoo filter confuses with it; one string of 4200 bytes merges all salts a constructed Bloom filter can have, so keys starting with it have a single position for every number of hash functions up to 128, and 2^32-1 others each that are reported with them. After some four-byte groups the hash ignores the next two bytes. The error probability given to the cuckoo filter constructor is ignored."
  },
  {
   "property": "C111",
   "status": "partial",
   "theorems": [
    "Kunlun.ElGamal.elgamal_hides_message",
    "Kunlun.ElGamal.elgamal_reRand_fresh",
    "Kunlun.ExpElGamal.exp_elgamal_hides_message",
    "Kunlun.ExpElGamal.exp_elgamal_multi_hides_message",
    "Kunlun.ExpElGamal.exp_elgamal_reRand_fresh",
    "Kunlun.Twisted.twisted_hides_message",
    "Kunlun.Twisted.twisted_multi_hides_message",
    "Kunlun.Twisted.twisted_reRand_fresh",
    "Kunlun.ElGamal.elgamal_many_hide",
    "Kunlun.ExpElGamal.exp_elgamal_many_hide",
    "Kunlun.Twisted.twisted_many_hide",
    "Kunlun.ElGamal25519.elgamal25519_guess"
   ],
   "note": "Reductions to the decisional Diffie-Hellman problem, which is an assumption outside the model; scalars drawn uniformly below the order; any number of ciphertexts under one key with messages chosen one after the other (the bound does not grow with their number); several recipients with keys that are fixed shifts (exponential) or multiples (twisted) of one random key; re-randomisation exactly, for twisted ElGamal with a key other than zero. The code violates the property in the default build of elgamal.hpp (Curve25519): the randomness of Enc is a constant, so a ciphertext can be compared with the encryption of any guess."
  },
  {
   "property": "C112",
   "status": "partial",
   "theorems": [
    "Kunlun.CwPRF.PSI.psi_receiver_view_hides_partial",
    "Kunlun.CwPRF.PSI.psi_sender_view_hides_partial",
    "Kunlun.CwPRF.PSI.psi_views",
    "Kunlun.CwPRF.PSI.receive_from_view",
    "Kunlun.CwPRF.PSI.send_from_view",
    "Kunlun.CwPRF.PSI.psi_reveals_positions",
    "Kunlun.CwPRF.PSI.psi_tells_order",
    "Kunlun.CwPRF.PSI.psi_guess"
   ],
   "note": "Proved for a random function in place of the keyed one, and up to the positions of the common items. The code violates the rest: the sender's items are sent in their order, so the receiver learns where in the sender's list each common item stands; the keys of both parties are a public constant, so both can test any guess for the items of the other (see also C62)."
  },
  {
   "property": "C113",
   "status": "partial",
   "theorems": [
    "Kunlun.DDHPEQT.peqt_view_hides_partial",
    "Kunlun.DDHPEQT.peqt_sender_view_ddh",
    "Kunlun.DDHPEQT.peqt_receiver_view_ddh",
    "Kunlun.DDHPEQT.peqt_view",
    "Kunlun.DDHPEQT.peqt_reveals_matches",
    "Kunlun.DDHPEQT.peqt_reveals_position"
   ],
   "note": "Proved for a random function in place of the keyed one and, with C114, under the decisional Diffie-Hellman assumption for a random hash; for different items on each side, up to matches at different positions. The code violates the rest: the receiver compares any entry of the sender with any of its own, also at different positions, and if it has equal items itself these show through the permutation, so that the bit of an item that occurs once can be attributed."
  },
  {
   "property": "C114",
   "status": "proved",
   "theorems": [
    "Kunlun.Hiding.ddh_prf",
    "Kunlun.Hiding.ddh_views",
    "Kunlun.Hiding.masked_uniform"
   ],
   "note": "An exact reduction (equality up to the factor 1 - 1/order). That Diffie-Hellman values are hard to tell from random points, and that the hash to the curve behaves like a random function, are assumptions outside the model; BlockToECPoint of the code does not behave like one (C99: it can be inverted). The keys of cwPRF protocols are constants (C62)."
  },
  {
   "property": "C115",
   "status": "partial",
   "theorems": [
    "Kunlun.DDHOPRF.ddh_oprf_server_view_hides_partial",
    "Kunlun.DDHOPRF.ddh_oprf_one_input",
    "Kunlun.DDHOPRF.ddh_oprf_client_view_hides",
    "Kunlun.DDHOPRF.ddh_oprf_other_values",
    "Kunlun.DDHOPRF.ddh_oprf_views",
    "Kunlun.DDHOPRF.oprf_from_views",
    "Kunlun.DDHOPRF.ddh_oprf_repeats_show"
   ],
   "note": "Proved for inputs with repetitions at the same places. The code violates the rest: one blinding is used for all inputs, so the server sees which of them are equal, and the client sees where equal inputs were moved."
  },
  {
   "property": "C116",
   "status": "partial",
   "theorems": [
    "Kunlun.Dlog.table_files_partial",
    "Kunlun.Dlog.table_name_iff",
    "Kunlun.Dlog.table_name_two_bytes",
    "Kunlun.Dlog.table_names_few",
    "Kunlun.Dlog.table_file_of_other_base",
    "Kunlun.Dlog.table_file_wrong_message",
    "Kunlun.Dlog.toHexString_ambiguous"
   ],
   "note": "Proved: the name determines range and tradeoff, and if the hashes of the bases in use differ in their first 16 hexadecimal characters, every program gets its own table, whatever ran before. The code violates the rest: ToHexString prints a byte of at least 128 as eight characters (sign extension), so for one base in four the name depends on two bytes of the hash only; two bases that share a name share the file, and a program that uses the second decrypts no message other than 0 correctly, silently."
  },
  {
   "property": "C117",
   "status": "partial",
   "theorems": [
    "Kunlun.BigInt.randBetween_uniform",
    "Kunlun.BigInt.genCoPrime_sound",
    "Kunlun.BigInt.genCoPrime_uniform",
    "Kunlun.BigInt.genCoPrime_ends",
    "Kunlun.BigInt.isSafePrime_spec",
    "Kunlun.BigInt.div_exact",
    "Kunlun.BigInt.randVector_range_partial",
    "Kunlun.BigInt.randBetween_empty",
    "Kunlun.BigInt.genCoPrime_not_positive",
    "Kunlun.BigInt.randVectorAbs_minus_max",
    "Kunlun.BigInt.randVector_same_second",
    "Kunlun.BigInt.randVector_small"
   ],
   "note": "Proved for ranges that are not empty and positive arguments; BN_rand_range, BN_is_prime_ex and rand are parameters. The code violates the rest: an empty range gives start, GenCoPrimeLessThan never ends below -1 and returns 0 for 0, GenRandomIntegerVectorAbsoluteLessThan can return -MAX, two calls in one second give the same numbers, numbers of 2^31 and more are never drawn, and Div prints its warning exactly when the division is exact."
  },
  {
   "property": "C118",
   "status": "proved",
   "theorems": [
    "Kunlun.vecMul_spec",
    "Kunlun.vecMulRange_split",
    "Kunlun.vecMul_add",
    "Kunlun.ecVec_spec"
   ],
   "note": "EC_POINTs_mul is modelled by the sum of the multiples."
  },
  {
   "property": "C119",
   "status": "proved",
   "theorems": [
    "Kunlun.Murmur3.murmur3_32_word",
    "Kunlun.Murmur3.murmur3_x86_128_group",
    "Kunlun.Murmur3.murmur3_x64_128_group",
    "Kunlun.Murmur3.murmur64B_group",
    "Kunlun.Murmur3.murmur2_word",
    "Kunlun.Murmur3.murmur2A_word",
    "Kunlun.Murmur3.murmur3_multicollision"
   ],
   "note": "All messages, prefixes, suffixes and seeds; messages below 2^31 bytes (int lengths). LiteMurmurHash, which the filters use, is treated in C110 and MurmurHash64A in C106. The models also give the published verification values of the reference implementations (a check of the model, not a proof)."
  },
  {
   "property": "C120",
   "status": "partial",
   "theorems": [
    "Kunlun.OTEOPRF.Width.candidates",
    "Kunlun.OTEOPRF.Width.weakShare_eq",
    "Kunlun.OTEOPRF.Width.width_enough_partial",
    "Kunlun.OTEOPRF.Width.width_not_enough",
    "Kunlun.OTEOPRF.Width.chancePairs_eq",
    "Kunlun.OTEOPRF.Width.range_enough",
    "Kunlun.CwPRF.PSI.truncate_enough",
    "Kunlun.CwPRF.PSI.truncate_inside"
   ],
   "note": "Positions and values are taken as independent and uniform (in the code: AES under public keys, hashes, masked points). Proved: the exact share of placements that leave less than 128 unknown bits (a binomial tail); the width is enough for 2^5 to 2^24 inputs; output and truncation lengths are enough for all parameters and minimal. The code violates the rest: with fewer than 2^5 or at least 2^25 inputs (Setup accepts up to 2^30) the width misses the bound 2^-40."
  },
  {
   "property": "C121",
   "status": "partial",
   "theorems": [
    "Kunlun.Bloom.bloom_rate_exceeds",
    "Kunlun.Bloom.bloom_rate_bound_partial",
    "Kunlun.Bloom.bloom_rate_twice",
    "Kunlun.Bloom.falseReports_eq",
    "Kunlun.Bloom.reports_iff"
   ],
   "note": "Averages over all positions that perfect hash functions can give; the filter, its constructor, insertions and queries are those of the model. The code violates the announced bound for every filter with k*n >= 4000, because the factor 1.44 was rounded down from 1/ln 2 = 1.4427: the rate is above 2^-k. Proved instead: it is at most (0.501 + 0.35/n)^k, less than twice the announced rate for 1024 elements and more. The product 1.44*k*n is taken up to rounding of floating-point numbers. With the hash functions of the code the filter is worse (C110)."
  },
  {
   "property": "C122",
   "status": "partial",
   "theorems": [
    "Kunlun.Files.pp_files",
    "Kunlun.Files.ct_file",
    "Kunlun.Files.mrct_file_partial",
    "Kunlun.Files.proof_files",
    "Kunlun.Files.vector_proof_files_partial",
    "Kunlun.Files.signature_file_accepted",
    "Kunlun.Files.proof_file_accepted",
    "Kunlun.Files.mrct_file_default",
    "Kunlun.Files.ct_difference_lost"
   ],
   "note": "Proved for objects without points at infinity and, where there are vectors, receiving objects with vectors as long. The code violates the rest: vectors are stored without length, so a new object for a ciphertext for several recipients reads the first recipient's point as Y; and a point at infinity is never restored, so the difference of a ciphertext and itself leaves the receiving object as it was."
  },
  {
   "property": "C123",
   "status": "proved",
   "theorems": [
    "Kunlun.Bullet.bulletproof_simulated"
   ],
   "note": "The group is generated by g and h is not the point at infinity; the challenges y and x are no multiples of the order (probability below 2^-250 each). The simulator runs the inner-product argument of the code on the vectors it has drawn."
  },
  {
   "property": "C124",
   "status": "proved",
   "theorems": [
    "Kunlun.ADCP.adcp_transaction_simulated",
    "Kunlun.ADCP.adcp_transaction_hides_amount"
   ],
   "note": "Random-oracle model: the values of the hash function on all strings up to the length that is hashed are drawn independently from a finite set of numbers that are no multiples of the order; the amounts are chosen before the hash function is drawn, the test sees all of it. The receiver's and the supervisor's key are known multiples of the sender's (independent keys are the average over the factors); a drawn key 0 is not counted. One transaction with one receiver; the test may know balance and name. The initial balance itself is not hidden (C125)."
  },
  {
   "property": "C125",
   "status": "partial",
   "theorems": [
    "Kunlun.ADCP.adcp_initial_balance_readable",
    "Kunlun.ADCP.adcp_initial_balance_partial"
   ],
   "note": "The code violates it: the encryption randomness of the initial balance is the hash of the account's name, so whoever knows the name reads the balance off the ciphertext. Proved instead: to whom the hash of the name looks random the balance is hidden as far as Diffie-Hellman values look random."
  },
  {
   "property": "C126",
   "status": "partial",
   "theorems": [
    "Kunlun.RingSig.ringSig_tells_signer",
    "Kunlun.RingSig.ringSig_ciphertext_hides_signer_partial",
    "Kunlun.EncRelation.encRelation_tells_randomness",
    "Kunlun.EncRelation.encRelation_tells_digit",
    "Kunlun.EncRelation.candidates_one"
   ],
   "note": "The code violates it: the responses of the one-out-of-many proof are not reduced modulo the order, so rounding up z/x^m gives the randomness of the ciphertext (one candidate if the challenge exceeds the order, about order/challenge otherwise), and with it the signer's public key; the digit responses alone tell digits of the index. Proved instead: the ciphertext of the signer's key without the proof hides the signer as far as Diffie-Hellman values look random."
  },
  {
   "property": "C127",
   "status": "proved",
   "theorems": [
    "Kunlun.Schnorr.schnorr_unforgeable",
    "Kunlun.Schnorr.attack_le_sim",
    "Kunlun.Fork.forking"
   ],
   "note": "Random-oracle model: hash values of the strings in a finite set are drawn independently from a set of numbers that differ modulo the order. Explicit bound and explicit reduction (breaker), which is given the public key only. Messages that are signed or forged are those whose hashed strings are in the set (for example all messages up to a length); the encoding of points has one length. Keys and nonces are drawn below the order; that the code draws them so is C117, where the generator is seeded well."
  },
  {
   "property": "C128",
   "status": "proved",
   "theorems": [
    "Kunlun.DLOGKnowledge.dlogKnowledge_extracts",
    "Kunlun.DLOGEquality.dlogEquality_extracts",
    "Kunlun.DLOGEquality.dlogEquality_sound",
    "Kunlun.PlaintextKnowledge.plaintextKnowledge_extracts",
    "Kunlun.PlaintextEquality.plaintextEquality_extracts",
    "Kunlun.PlaintextEquality.plaintextEquality_sound",
    "Kunlun.Fork.extracts",
    "Kunlun.Fork.sound"
   ],
   "note": "Random-oracle model as in C127. For plaintext equality with as many points and first messages as recipients (shorter proofs are undefined behaviour, C29). One proof at a time: simulated proofs of others are not available to the prover."
  },
  {
   "property": "C129",
   "status": "proved",
   "theorems": [
    "Kunlun.ADCP.adcp_spender_knows_key",
    "Kunlun.ADCP.adcp_refresh_sound",
    "Kunlun.ADCP.adcp_amount_sound",
    "Kunlun.ADCP.adcpMany_spender_knows_key",
    "Kunlun.ADCP.adcpMany_refresh_sound",
    "Kunlun.ADCP.adcpMany_balance_extracts",
    "Kunlun.ADCP.adcpMany_amount_sound"
   ],
   "note": "Random-oracle model as in C127. The sender has not seen other transactions of the account: a recorded transaction can be submitted again (C43), and the balance it names is its own choice (C43); with many receivers the X component debited is also unproved (C46). That amounts are in range is C88, for rewinding of the range proof."
  },
  {
   "property": "C130",
   "status": "proved",
   "theorems": [
    "Kunlun.ADCP.adcp_open_sound_rom",
    "Kunlun.ADCP.adcp_open_knows_key",
    "Kunlun.ADCP.adcp_opened_is_paid",
    "Kunlun.ADCP.adcp_rate_sound_rom",
    "Kunlun.ADCP.adcp_rate_knows_key",
    "Kunlun.ADCP.adcp_limit_sum_sound",
    "Kunlun.ADCP.adcp_limit_knows_key"
   ],
   "note": "Random-oracle model as in C127. For the key 0 nothing is said (it opens anything). That the sum of a limit lies in the interval is C45, for rewinding of the range proof; amounts and rates are equal modulo the group order. An accepted proof can be shown again by anybody (the audits hash no name of the auditor)."
  },
  {
   "property": "C131",
   "status": "partial",
   "theorems": [
    "Kunlun.OKVS.okvs_uniform_partial",
    "Kunlun.OKVS.okvs_oblivious_partial",
    "Kunlun.OKVS.okvs_plain_untouched",
    "Kunlun.OKVS.okvs_plain_absent",
    "Kunlun.OKVS.okvs_plain_not_oblivious"
   ],
   "note": "The code violates it when encode is called without a generator, as the rrPKE membership test does: columns no stored key hits keep what the buffer held, and keys with such columns only decode to zero. Proved with a generator (its values drawn independently) and without gap rows: the vector is uniform. With gap rows the randomised encode can be wrong (C55)."
  },
  {
   "property": "C132",
   "status": "proved",
   "theorems": [
    "Kunlun.ADCP.adcp_many_simulated",
    "Kunlun.ADCP.adcp_many_hides_amounts"
   ],
   "note": "Random-oracle model as in C124; the number of receivers plus one times the range length is a power of two, as the range proof demands. The receivers' and the supervisor's keys are known multiples of the sender's. The same receiver may occur several times."
  },
  {
   "property": "C133",
   "status": "proved",
   "theorems": [
    "Kunlun.ADCP.adcp_open_simulated",
    "Kunlun.ADCP.adcp_rate_simulated",
    "Kunlun.ADCP.adcp_limit_simulated"
   ],
   "note": "Random-oracle model as in C124. The transactions say one amount to sender, receiver and supervisor (which accepted ones do, C129); for the limit the group is generated by g, the range length is half a power of two and the decryption finds the sum (C22). One audit at a time."
  },
  {
   "property": "C134",
   "status": "proved",
   "theorems": [
    "Kunlun.Gadget.gadget_type1_simulated",
    "Kunlun.Gadget.gadget_type2_simulated"
   ],
   "note": "Random-oracle model as in C124, with an oracle for all strings up to the length that is hashed. The bounds pass the test of Prove, the group is generated by g, the range length is half a power of two; for type 2 the decryption finds the plaintext (C22). One proof at a time."
  },
  {
   "property": "C135",
   "status": "proved",
   "theorems": [
    "Kunlun.CwPRF.Rpmt.rpmt_wrong_bits",
    "Kunlun.CwPRF.Rpmt.rpmt_wrong_effect"
   ],
   "note": "The positions in the filter are those of perfect hash functions (average over all of them); with the hash of the code chosen keys are worse (C110). The rate is slightly above 2^-parameter, as stated in C121, and below twice that. The doubly masked items are different byte strings, which holds for keys that act injectively (C103, C106). The product 1.44*n*parameter is taken up to rounding of floating-point numbers."
  },
  {
   "property": "C136",
   "status": "proved",
   "theorems": [
    "Kunlun.Gadget.gadget_type1_knows",
    "Kunlun.Gadget.gadget_type2_knows_key",
    "Kunlun.Gadget.gadget_type2_knows_plaintext",
    "Kunlun.Gadget.gadget_type2_same_plaintext"
   ],
   "note": "Random-oracle model as in C127. The prover may even choose the scalar the verifier draws. That the plaintext lies in the interval is C40 with C87, for rewinding of the range proof. For the key 0 nothing is said about the plaintexts."
  },
  {
   "property": "C137",
   "status": "proved",
   "theorems": [
    "Kunlun.PRG.otp_str_is_vec",
    "Kunlun.PRG.otp_str_round_trip",
    "Kunlun.PRG.otp_str_reuse",
    "Kunlun.PRG.otp_str_malleable",
    "Kunlun.PRG.xor_str_range",
    "Kunlun.Block.block_file_round_trip",
    "Kunlun.Block.block_file_portions",
    "Kunlun.Block.block_file_short",
    "Kunlun.Block.block_file_short_one"
   ],
   "note": "The load in operator>> uses the instruction for aligned memory on an array of char; that the compiler aligns the array is not modelled. The operators are declared in namespace Block, so a program has to name the namespace to use them."
  },
  {
   "property": "C138",
   "status": "partial",
   "theorems": [
    "Kunlun.FastKey.fast_key_value",
    "Kunlun.FastKey.fast_key_tells_apart_partial",
    "Kunlun.FastKey.fast_key_low_bits",
    "Kunlun.FastKey.fast_keys_collide"
   ],
   "note": "Violated: the low 72 bits of the abscissa do not enter the key (fast_key_low_bits), so that points with small abscissae have one key whatever the key of the cipher (fast_keys_collide). Proved: buffers with the same first 16 bytes are told apart exactly by the next eight. Nothing in the repository calls FastToUint64. The aligned loads of lines 263 and 264 from an array of bytes are taken to work."
  },
  {
   "property": "C139",
   "status": "proved",
   "theorems": [
    "Kunlun.Bloom.bloom_container_bits",
    "Kunlun.Bloom.bloom_container_no_false_negatives",
    "Kunlun.Bloom.bloom_point_keys"
   ],
   "note": "Which overload C++ selects is resolved by hand. A vector of vectors is not among the element types: for it the compiler selects the container overload, which takes the inner elements as keys."
  },
  {
   "property": "C140",
   "status": "partial",
   "theorems": [
    "Kunlun.Baxos.baxos_uniform_partial",
    "Kunlun.Baxos.baxos_uniform_one_partial",
    "Kunlun.Baxos.baxos_oblivious_partial",
    "Kunlun.Baxos.baxos_reaches",
    "Kunlun.Baxos.baxos_plain_untouched"
   ],
   "note": "Violated without a generator: columns that no key of the bin hits keep what the buffer held (baxos_plain_untouched), and with a generator if there are gap rows (okvs_randomised_wrong of C55). Proved: with a generator and no gap rows in any bin, the vector is uniform among those that decode to the values, and uniform among all vectors if the values are random (for a single bin: okvs_oblivious_partial of C131). The values of the generator are taken to be independent for each position of each bin; that the threads share one generator object without a lock is not modelled."
  },
  {
   "property": "C141",
   "status": "partial",
   "theorems": [
    "Kunlun.Ec25519.point_compare_iff",
    "Kunlun.Ec25519.point_order",
    "Kunlun.Ec25519.point_xor_bytes",
    "Kunlun.Ec25519.point_xor_twice",
    "Kunlun.Ec25519.point_file_round_trip",
    "Kunlun.Ec25519.point_file_short",
    "Kunlun.Ec25519.point_fresh_not_zero",
    "Kunlun.Ec25519.point_unequal_same",
    "Kunlun.Ec25519.point_equal_after_mul"
   ],
   "note": "Violated: == compares bytes, and two byte strings can stand for one point (point_unequal_same); a new point holds 32 characters '0', not zero bytes as its comment says (point_fresh_not_zero). Results of multiplications compare equal exactly if they are the same first coordinate. A short file leaves a mixture of old and new bytes in the point."
  },
  {
   "property": "C142",
   "status": "partial",
   "theorems": [
    "Kunlun.HashWrap.string_to_block",
    "Kunlun.HashWrap.string_to_bigint",
    "Kunlun.HashWrap.blocks_to_block",
    "Kunlun.HashWrap.point_to_block",
    "Kunlun.HashWrap.point_to_string_partial",
    "Kunlun.HashWrap.point_to_string_infinity",
    "Kunlun.HashWrap.infinity_shows_stack",
    "Kunlun.HashWrap.blocks_are_string"
   ],
   "note": "Violated: for the point at infinity ECPointToString and ECPointToBytes hash 32 bytes of uninitialised stack, so that two calls differ unless the basic hash function collides (point_to_string_infinity, infinity_shows_stack). Proved for all other points and for the other functions. The functions are not separated from each other (blocks_are_string). SM3 and SHA-256 are any function with 32-byte results."
  }
 ]
}