{
 "claims": [
  {
   "property": "C01",
   "status": "proved",
   "theorems": [
    "Verif.RCPrf.c01_constrained_eval_eq",
    "Verif.RCPrf.c01_constrained_eval_tree",
    "Verif.RCPrf.c01_constrain_accepted"
   ],
   "note": "heights up to 63; the tree-value version covers 64; PRG stream is a parameter"
  },
  {
   "property": "C02",
   "status": "proved",
   "theorems": [
    "Verif.RCPrf.c02_eval_outside_throws",
    "Verif.RCPrf.c02_range_outside_throws",
    "Verif.RCPrf.c02_material_inside"
   ],
   "note": "key material statement is symbolic: derivability by going from a node to its children"
  },
  {
   "property": "C03",
   "status": "proved",
   "theorems": [
    "Verif.RCPrf.c03_range_in_order"
   ],
   "note": "heights 2..63"
  },
  {
   "property": "C04",
   "status": "proved",
   "theorems": [
    "Verif.RCPrf.c04_constrained_range"
   ],
   "note": ""
  },
  {
   "property": "C05",
   "status": "proved",
   "theorems": [
    "Verif.RCPrf.c05_reconstrain"
   ],
   "note": ""
  },
  {
   "property": "C06",
   "status": "proved",
   "theorems": [
    "Verif.RCPrf.c06_cover"
   ],
   "note": ""
  },
  {
   "property": "C07",
   "status": "partial",
   "theorems": [
    "Verif.RCPrf.c07_eval_range_check_partial",
    "Verif.RCPrf.c07_alias",
    "Verif.RCPrf.c07_false",
    "Verif.RCPrf.c07_height64_eval_undefined",
    "Verif.RCPrf.c07_constructor_accepts",
    "Verif.RCPrf.c07_height1_eval_undefined",
    "Verif.RCPrf.c07_range_false"
   ],
   "note": "property is false for the code: indices 2^(h-1)..2^h-1 alias other leaves, heights 1 and 64 are undefined; counterexamples proved"
  },
  {
   "property": "C08",
   "status": "proved",
   "theorems": [
    "Verif.RCPrf.c08_roundtrip",
    "Verif.RCPrf.c08_roundtrip_constrained",
    "Verif.RCPrf.c08_deserialize_sound",
    "Verif.RCPrf.c08_empty_not_roundtrip"
   ],
   "note": ""
  },
  {
   "property": "C09",
   "status": "proved",
   "theorems": [
    "Verif.RCPrf.c09_roundtrip",
    "Verif.RCPrf.c09_deserialize_sound"
   ],
   "note": ""
  },
  {
   "property": "C10",
   "status": "partial",
   "theorems": [
    "Verif.RCPrf.c10_full_key_range_checks",
    "Verif.RCPrf.c10_constrained_key_partial",
    "Verif.RCPrf.c10_inverted_false"
   ],
   "note": "full keys: proved; constrained keys: inverted ranges are not rejected by the code (counterexamples proved)"
  },
  {
   "property": "C100",
   "status": "partial",
   "theorems": [
    "Verif.Io.c100_store",
    "Verif.Io.c100_found_partial",
    "Verif.Io.c100_shorter_false",
    "Verif.Io.c100_find",
    "Verif.Io.c100_free",
    "Verif.Io.c100_made"
   ],
   "note": "proved except that a value stored over a longer one is found with the tail of the old one (c100_shorter_false; the exact value is in c100_store); the value to store does not overlap the list"
  },
  {
   "property": "C101",
   "status": "proved",
   "theorems": [
    "Verif.Prg.Game.c101_generator",
    "Verif.Prg.Game.c101_code",
    "Verif.Prg.Game.c101_number",
    "Verif.Prg.Game.c101_derived_keys",
    "Verif.Prg.Game.c101_pairs",
    "Verif.Prg.Game.c101_rcprf",
    "Verif.Prg.Game.c101_lengths_false"
   ],
   "note": "exact averages over uniform keys; the block function is a parameter, crypto_stream_chacha20_xor_ic is counter mode over it; the ideal stream has 64 D bytes for any D; c101_lengths_false shows what does not hold; running times are not modelled"
  },
  {
   "property": "C102",
   "status": "proved",
   "theorems": [
    "Verif.Mac.Rom.c102_hmac",
    "Verif.Mac.Rom.c102_hmac_code",
    "Verif.Mac.Rom.c102_prf",
    "Verif.Mac.Rom.c102_forgery",
    "Verif.Mac.Rom.c102_guess"
   ],
   "note": "exact averages over uniform keys and uniform tables of hash values of the strings of at most N bytes, for any N (random-oracle model: the real hash function is not a random table); keys of 32 bytes; running times are not modelled"
  },
  {
   "property": "C103",
   "status": "partial",
   "theorems": [
    "Verif.Key.Fail.c103_values",
    "Verif.Key.Fail.c103_safe",
    "Verif.Key.Fail.c103_strong",
    "Verif.Key.Fail.c103_protected",
    "Verif.Key.Fail.c103_owner",
    "Verif.Key.Fail.c103_released_partial",
    "Verif.Key.Fail.c103_lost_false",
    "Verif.Key.Fail.c103_enosys_false",
    "Verif.Key.Fail.c103_lucky"
   ],
   "note": "proved except that a constructor that throws after it allocated its buffer leaks it with the key inside (c103_lost_false; c103_released_partial excludes exactly these constructors), and that the flag says nothing where the system cannot protect pages (c103_enosys_false); compiled with memory locking"
  },
  {
   "property": "C104",
   "status": "proved",
   "theorems": [
    "Verif.Tdp.Hard.c104_chain",
    "Verif.Tdp.Hard.c104_bound",
    "Verif.Tdp.Hard.c104_sampled",
    "Verif.Tdp.Hard.c104_everywhere",
    "Verif.Tdp.Hard.c104_factor",
    "Verif.Tdp.Hard.c104_product_false"
   ],
   "note": "exact averages over uniform seeds; that RSA is hard to invert is an assumption about the algorithms named by the theorem (solve), not proved; running times are not modelled, the algorithms make at most T evaluations for each question; c104_product_false shows that the inverses are not independent"
  },
  {
   "property": "C105",
   "status": "partial",
   "theorems": [
    "Verif.Tdp.Blind.c105_operands",
    "Verif.Tdp.Blind.c105_only",
    "Verif.Tdp.Blind.c105_first_partial",
    "Verif.Tdp.Blind.c105_same_partial",
    "Verif.Tdp.Blind.c105_apart_false",
    "Verif.Tdp.Blind.c105_relation_false",
    "Verif.Tdp.Blind.c105_jacobi_false",
    "Verif.Tdp.Blind.c105_short_false"
   ],
   "note": "operands and their exact form proved for the code; that they hide the messages holds only for a first number uniform among all invertible ones, for one call, or for sequences that differ by c, c^2, c^4, ... (partial); the code violates the rest (proved)"
  },
  {
   "property": "C106",
   "status": "proved",
   "theorems": [
    "Verif.Tdp.Tokens.c106_random_hash",
    "Verif.Tdp.Tokens.c106_prf",
    "Verif.Tdp.Tokens.c106_names_false"
   ],
   "note": "exact averages over uniform keys and uniform tables of hash values of the strings of at most N bytes, for any N (random-oracle model), or with the advantage against the Prf; that RSA is hard to invert is an assumption about the algorithms named by the theorem; running times are not modelled"
  },
  {
   "property": "C107",
   "status": "proved",
   "theorems": [
    "Verif.Io.Traced.c107_refines",
    "Verif.Io.Traced.c107_encode",
    "Verif.Io.Traced.c107_size",
    "Verif.Io.Traced.c107_decode",
    "Verif.Io.Traced.c107_refused_false",
    "Verif.Io.Traced.c107_write",
    "Verif.Io.Traced.c107_export",
    "Verif.Io.Traced.c107_import"
   ],
   "note": "source-level events (compilers may turn branches into selections); local variables are registers; the events of the DER writer and parser and of the search for the markers are not part of the statement; the result is that the code leaks the key to such an observer"
  },
  {
   "property": "C108",
   "status": "proved",
   "theorems": [
    "Verif.Trace.Sym.c108_refines",
    "Verif.Trace.Sym.c108_hmac",
    "Verif.Trace.Sym.c108_prf",
    "Verif.Trace.Sym.c108_prg",
    "Verif.Trace.Sym.c108_tree",
    "Verif.Trace.Sym.c108_subtree",
    "Verif.Trace.Sym.c108_encrypt",
    "Verif.Trace.Sym.c108_decrypt"
   ],
   "note": "source-level events; the functions of libsodium show only the addresses of their arguments; memory protection of keys is not traced; the leaf is shown because the offset of a child selects a branch of derive_key and prg_derivation"
  },
  {
   "property": "C109",
   "status": "partial",
   "theorems": [
    "Verif.Scrub.c109_hmac",
    "Verif.Scrub.c109_prf",
    "Verif.Scrub.c109_prf_empty_false",
    "Verif.Scrub.c109_derive_key",
    "Verif.Scrub.c109_prg",
    "Verif.Scrub.c109_keys",
    "Verif.Scrub.c109_duplicate",
    "Verif.Scrub.c109_cipher",
    "Verif.Scrub.c109_decrypt_string_false",
    "Verif.Scrub.c109_prp_false",
    "Verif.Scrub.c109_hash_false",
    "Verif.Scrub.c109_random_string_false",
    "Verif.Scrub.c109_eval",
    "Verif.Scrub.c109_sample",
    "Verif.Scrub.c109_invert",
    "Verif.Scrub.c109_invert_mult",
    "Verif.Scrub.c109_generate_false",
    "Verif.Scrub.c109_scalar_false",
    "Verif.Scrub.c109_encrypt_false",
    "Verif.Scrub.c109_decrypt_false",
    "Verif.Scrub.c109_leaf_false"
   ],
   "note": "the statement is proved as written, with exactly what each function leaves; marked partial because the code does not erase everything, and because the copies inside std::string, what the primitives of libsodium, mbedTLS and RELIC leave, registers and copies made by the compiler are not modelled; big integers are in C85, Key in C20-C22, unwrap in C60"
  },
  {
   "property": "C11",
   "status": "proved",
   "theorems": [
    "Verif.RCPrf.c11_order_independent",
    "Verif.RCPrf.c11_any_sort",
    "Verif.RCPrf.c11_accepted_covers",
    "Verif.RCPrf.c11_refused",
    "Verif.RCPrf.c11_height66_false"
   ],
   "note": "for tree heights up to 65; beyond, a counterexample is proved"
  },
  {
   "property": "C110",
   "status": "proved",
   "theorems": [
    "Verif.AezRandom.c110_strings",
    "Verif.AezRandom.c110_numbers",
    "Verif.AezRandom.c110_questions"
   ],
   "note": "a reduction: five of the seven keyed functions are four rounds of AES, so the remaining term is an assumption about the particular attack toFunctions A, not a standard one about AES; strings of more than 32 bytes are in C111"
  },
  {
   "property": "C111",
   "status": "proved",
   "theorems": [
    "Verif.AezWide.c111_strings",
    "Verif.AezWide.c111_questions"
   ],
   "note": "a reduction, as C110: the remaining term is an assumption about the particular attack toFunctions A; attacks that mix strings of less than 32 bytes with longer ones are in C112; from 1001 pairs on (32064 bytes) the assumption fails, see C113"
  },
  {
   "property": "C112",
   "status": "proved",
   "theorems": [
    "Verif.AezAll.c112_strings",
    "Verif.AezAll.c112_questions"
   ],
   "note": "a reduction, as C110 and C111: the remaining term is an assumption about the particular attack toFunctions A; from 1001 pairs on (32064 bytes) it fails, see C113"
  },
  {
   "property": "C113",
   "status": "partial",
   "theorems": [
    "Verif.AezMask.c113_strings_partial",
    "Verif.AezMask.c113_shape",
    "Verif.AezWide.c113_exchange",
    "Verif.AezWide.c113_attack",
    "Verif.AezWide.c113_assumption"
   ],
   "note": "c113_strings_partial proves the property for strings of less than 32064 bytes (at most 1000 pairs), from an assumption about three AES functions, and c113_shape that the code uses only these; the code violates the property from 32064 bytes on: c113_exchange shows that two parts of 32 bytes are treated alike, c113_attack that two questions tell the code from random permutations with probability almost 1, c113_assumption that the assumption of C111 fails there"
  },
  {
   "property": "C114",
   "status": "partial",
   "theorems": [
    "Verif.AezWhole.c114_object",
    "Verif.AezWhole.c114_object_partial",
    "Verif.AezWhole.c114_bytes",
    "Verif.AezWhole.c114_apart_false"
   ],
   "note": "the code violates the property: c114_bytes shows that an integer is treated as the string of its bytes, c114_apart_false that two calls tell the object from permutations of strings and other ones of integers with probability 1 - 256^-4 (or 256^-8); c114_object proves the statement with permutations that serve strings and integers alike, from the assumption of C112, c114_object_partial from that of C113 about three AES functions for strings of up to 32063 bytes"
  },
  {
   "property": "C115",
   "status": "proved",
   "theorems": [
    "Verif.Many.c115_prp",
    "Verif.Many.c115_prg",
    "Verif.Many.c115_prf",
    "Verif.Many.c115_derived"
   ],
   "note": "reductions: the terms that remain are averages, over the keys of the other objects, of the advantage of one attack each on the keyed functions of AEZ, on the block function, or on HMAC; strings asked of Prf have a bound L that the loss does not depend on"
  },
  {
   "property": "C116",
   "status": "partial",
   "theorems": [
    "Verif.AezParity.c116_exists",
    "Verif.AezParity.c116_parity_partial",
    "Verif.AezParity.c116_random_partial",
    "Verif.AezParity.c116_uniform",
    "Verif.AezParity.c116_even"
   ],
   "note": "the code violates the property for strings of 16 bytes or more: c116_even proves that the permutation is even for every key and every length up to 4294967295; c116_parity_partial and c116_random_partial are the property for 1 to 15 bytes"
  },
  {
   "property": "C117",
   "status": "proved",
   "theorems": [
    "Verif.Cipher.Many.c117_ciphers",
    "Verif.Cipher.Many.c117_forgery",
    "Verif.Cipher.Many.c117_cross"
   ],
   "note": "a reduction to C90: the terms that remain are averages, over the keys of the other objects, of the advantage of one attack each on the key derivation, and a bound on the attacks on one key of the authenticated encryption that these attacks are turned into"
  },
  {
   "property": "C118",
   "status": "proved",
   "theorems": [
    "Verif.Wrapper.Many.c118_wrappers",
    "Verif.Wrapper.Many.c118_forgery",
    "Verif.Wrapper.Many.c118_cross"
   ],
   "note": "a reduction to C91: the terms that remain (loss) are averages, over the keys of the other wrappers, of the advantages of one attack each on the key derivation, the tag and the key stream"
  },
  {
   "property": "C119",
   "status": "proved",
   "theorems": [
    "Verif.Io.Exact.c119_accept",
    "Verif.Io.Exact.c119_value",
    "Verif.Io.Exact.c119_canonical",
    "Verif.Io.Exact.c119_spaces_false"
   ],
   "note": "c119_spaces_false is the violation for texts of 2^32 characters and more, where the 32-bit counter of spaces wraps"
  },
  {
   "property": "C12",
   "status": "proved",
   "theorems": [
    "Verif.Prg.c12_window",
    "Verif.Prg.c12_rcprf_window"
   ],
   "note": "lengths up to 2^63 bytes; the ChaCha20 block function is a parameter"
  },
  {
   "property": "C120",
   "status": "proved",
   "theorems": [
    "Verif.Io.Der.c120_private",
    "Verif.Io.Der.c120_public",
    "Verif.Io.Der.c120_subject",
    "Verif.Io.Der.c120_pkcs8",
    "Verif.Io.Der.c120_der",
    "Verif.Io.Der.c120_trailing",
    "Verif.Io.Der.c120_zeros"
   ],
   "note": "the checks themselves (checkPub, checkPriv) are those of the model; PEM armour is C48 and C119"
  },
  {
   "property": "C121",
   "status": "proved",
   "theorems": [
    "Verif.Io.PemExact.c121_pem",
    "Verif.Io.PemExact.c121_private",
    "Verif.Io.PemExact.c121_private_complete",
    "Verif.Io.PemExact.c121_public"
   ],
   "note": "the bytes inside the armour are read as in C120, the body is decoded as in C119"
  },
  {
   "property": "C122",
   "status": "proved",
   "theorems": [
    "Verif.Io.Normal.c122_private",
    "Verif.Io.Normal.c122_normal",
    "Verif.Io.Normal.c122_public",
    "Verif.Io.Normal.c122_part"
   ],
   "note": "that exporting can throw for imported keys with a long private exponent is c42_private_false"
  },
  {
   "property": "C123",
   "status": "partial",
   "theorems": [
    "Verif.Io.Composite.c123_permutation_partial",
    "Verif.Io.Composite.c123_square",
    "Verif.Io.Composite.c123_square_public",
    "Verif.Io.Composite.c123_false",
    "Verif.Io.Permutation.c123_exact",
    "Verif.Io.Permutation.c123_exact_public"
   ],
   "note": "violated by the code: mbedtls_rsa_check_privkey does not test whether the factors are primes, and a key with a square factor is accepted (c123_false); proved for prime factors, and refuted for every accepted key whose modulus is divisible by a square; c123_exact says exactly for which accepted keys it holds"
  },
  {
   "property": "C124",
   "status": "proved",
   "theorems": [
    "Verif.Io.Stream.c124_exact",
    "Verif.Io.Stream.c124_rest",
    "Verif.Io.Stream.c124_sequence"
   ],
   "note": "which bytes the constructor accepts is C121"
  },
  {
   "property": "C13",
   "status": "partial",
   "theorems": [
    "Verif.Prg.c13_split",
    "Verif.Prg.c13_overloads_partial",
    "Verif.Prg.c13_empty_false"
   ],
   "note": "the one-shot string overload throws for length 0 (counterexample proved); everything else proved"
  },
  {
   "property": "C14",
   "status": "proved",
   "theorems": [
    "Verif.Prg.c14_derived_keys",
    "Verif.Prg.c14_bulk_eq_single",
    "Verif.Prg.c14_windows_disjoint"
   ],
   "note": ""
  },
  {
   "property": "C15",
   "status": "proved",
   "theorems": [
    "Verif.Prg.c15_overflow",
    "Verif.Prg.c15_exact"
   ],
   "note": ""
  },
  {
   "property": "C16",
   "status": "partial",
   "theorems": [
    "Verif.Mac.c16_hmac_partial",
    "Verif.Mac.c16_truncation",
    "Verif.Mac.c16_rejects",
    "Verif.Mac.c16_moved_key_throws",
    "Verif.Mac.c16_overloads",
    "Verif.Mac.c16_long_key_truncated",
    "Verif.Mac.c16_long_key_false",
    "Verif.Mac.c16_very_long_key_undefined"
   ],
   "note": "proved for keys up to the hash block (128 bytes); longer keys, which the template accepts, are truncated or overflow (proved)"
  },
  {
   "property": "C17",
   "status": "proved",
   "theorems": [
    "Verif.Mac.c17_prf",
    "Verif.Mac.c17_length",
    "Verif.Mac.c17_bytes",
    "Verif.Mac.c17_overloads",
    "Verif.Mac.c17_null"
   ],
   "note": "all NBYTES for which the code terminates (1..65472)"
  },
  {
   "property": "C18",
   "status": "partial",
   "theorems": [
    "Verif.Mac.c18_counters_partial",
    "Verif.Mac.c18_repeat_false",
    "Verif.Mac.c18_no_termination_false"
   ],
   "note": "true up to 16384 output bytes; false beyond (8-bit counter repeats, 16-bit position never ends), both proved"
  },
  {
   "property": "C19",
   "status": "proved",
   "theorems": [
    "Verif.Mac.c19_prefix",
    "Verif.Mac.c19_string",
    "Verif.Mac.c19_rejects"
   ],
   "note": ""
  },
  {
   "property": "C20",
   "status": "partial",
   "theorems": [
    "Verif.Key.c20_value_semantics",
    "Verif.Key.c20_unique_owner",
    "Verif.Key.c20_all_released_partial",
    "Verif.Key.c20_empty_after_move",
    "Verif.Key.c20_callback_leak_false",
    "Verif.Key.c20_nolock_null_false"
   ],
   "note": "all histories of key operations; a callback constructor whose callback throws leaks its buffer (proved), and without memory locking data() of an empty key is null"
  },
  {
   "property": "C21",
   "status": "proved",
   "theorems": [
    "Verif.Key.c21_import",
    "Verif.Key.c21_null",
    "Verif.Key.c21_content_constant"
   ],
   "note": ""
  },
  {
   "property": "C22",
   "status": "partial",
   "theorems": [
    "Verif.Key.c22_at_rest_partial",
    "Verif.Key.c22_prp_encrypt_false",
    "Verif.Key.c22_prg_null_false"
   ],
   "note": "true for all histories without Prp::encrypt and without Prg::derive into a null buffer; both exceptions proved to violate it"
  },
  {
   "property": "C23",
   "status": "proved",
   "theorems": [
    "Verif.Cipher.c23_roundtrip",
    "Verif.Cipher.c23_roundtrip_buf",
    "Verif.Cipher.c23_in_place_false"
   ],
   "note": "AEAD and key derivation are parameters with the laws of Prims.Ok; the remark theorem shows that in-place encryption (not promised) loses the message"
  },
  {
   "property": "C24",
   "status": "proved",
   "theorems": [
    "Verif.Cipher.c24_decrypt",
    "Verif.Cipher.c24_bounds",
    "Verif.Cipher.c24_rejects"
   ],
   "note": ""
  },
  {
   "property": "C25",
   "status": "proved",
   "theorems": [
    "Verif.Cipher.c25_ciphertext",
    "Verif.Cipher.c25_pairs"
   ],
   "note": ""
  },
  {
   "property": "C26",
   "status": "proved",
   "theorems": [
    "Verif.Wrapper.c26_unwrap_wrap",
    "Verif.Wrapper.c26_classes"
   ],
   "note": "generic over classes whose serialization round-trips; shown for Cipher, Prf, Prg, Prp, RCPrf, ConstrainedRCPrf, and TdpInverse relative to the PEM parser"
  },
  {
   "property": "C27",
   "status": "proved",
   "theorems": [
    "Verif.Wrapper.c27_accepts_only_wraps",
    "Verif.Wrapper.c27_is_wrap",
    "Verif.Wrapper.c27_tamper",
    "Verif.Wrapper.c27_no_ub"
   ],
   "note": ""
  },
  {
   "property": "C28",
   "status": "partial",
   "theorems": [
    "Verif.Wrapper.c28_headers",
    "Verif.Wrapper.c28_confusion_partial",
    "Verif.Wrapper.c28_rcprf_partial",
    "Verif.Wrapper.c28_confusion_false"
   ],
   "note": "true for all pairs of types except RCPrf<11>/ConstrainedRCPrf<11>, for which a confusion is exhibited"
  },
  {
   "property": "C29",
   "status": "proved",
   "theorems": [
    "Verif.Wrapper.c29_keys",
    "Verif.Wrapper.c29_separated"
   ],
   "note": ""
  },
  {
   "property": "C30",
   "status": "proved",
   "theorems": [
    "Verif.Aez.c30_roundtrip",
    "Verif.Aez.c30_permutation",
    "Verif.Aez.c30_refusals",
    "Verif.Aez.c30_from_key"
   ],
   "note": "AES-NI branch of aez.c; the AES round function is an arbitrary parameter"
  },
  {
   "property": "C31",
   "status": "proved",
   "theorems": [
    "Verif.Aez.c31_roundtrip",
    "Verif.Aez.c31_bijection"
   ],
   "note": ""
  },
  {
   "property": "C32",
   "status": "proved",
   "theorems": [
    "Verif.Aez.c32_memory",
    "Verif.Aez.c32_in_place"
   ],
   "note": "abytes = 0 and a 16-byte nonce, the only way Prp calls it"
  },
  {
   "property": "C33",
   "status": "proved",
   "theorems": [
    "Verif.SetHash.c33_order"
   ],
   "note": "Ed25519 is a commutative group with an injective encoding (Curve.Ok)"
  },
  {
   "property": "C34",
   "status": "proved",
   "theorems": [
    "Verif.SetHash.c34_multiplicity",
    "Verif.SetHash.c34_undo"
   ],
   "note": ""
  },
  {
   "property": "C35",
   "status": "proved",
   "theorems": [
    "Verif.SetHash.c35_history"
   ],
   "note": ""
  },
  {
   "property": "C36",
   "status": "proved",
   "theorems": [
    "Verif.SetHash.c36_reimport"
   ],
   "note": ""
  },
  {
   "property": "C37",
   "status": "partial",
   "theorems": [
    "Verif.Tdp.c37_eval",
    "Verif.Tdp.c37_invert_eval",
    "Verif.Tdp.c37_eval_invert",
    "Verif.Tdp.c37_bijection",
    "Verif.Tdp.c37_sequence",
    "Verif.Tdp.c37_rejects_large",
    "Verif.Tdp.c37_generated",
    "Verif.Tdp.c37_imported",
    "Verif.Tdp.c37_after_rng_failure_false"
   ],
   "note": "proved for every 2048-bit key generated or imported, every message and every sequence of inversions as long as one of the first eleven blinding candidates is invertible; after a failed blinding the next inversion is wrong (proved)"
  },
  {
   "property": "C38",
   "status": "proved",
   "theorems": [
    "Verif.Tdp.c38_eval_back",
    "Verif.Tdp.c38_iterated",
    "Verif.Tdp.c38_large_input"
   ],
   "note": "keys with a 256-byte modulus"
  },
  {
   "property": "C39",
   "status": "partial",
   "theorems": [
    "Verif.Tdp.c39_exponent",
    "Verif.Tdp.c39_pool_partial",
    "Verif.Tdp.c39_order_above",
    "Verif.Tdp.c39_size_zero",
    "Verif.Tdp.c39_sizes",
    "Verif.Tdp.c39_copy",
    "Verif.Tdp.c39_order_zero_false",
    "Verif.Tdp.c39_size_one_false",
    "Verif.Tdp.c39_other_exponent_false",
    "Verif.Tdp.c39_impl_assign_false"
   ],
   "note": "exponent 65537, sizes 2..127, orders 1..size; the rest is refuted"
  },
  {
   "property": "C40",
   "status": "partial",
   "theorems": [
    "Verif.Tdp.c40_generate",
    "Verif.Tdp.c40_sample",
    "Verif.Tdp.c40_long_modulus_false"
   ],
   "note": "moduli below 256^256; refuted for longer ones"
  },
  {
   "property": "C41",
   "status": "partial",
   "theorems": [
    "Verif.Tdp.c41_lengths_partial",
    "Verif.Tdp.c41_pool_partial",
    "Verif.Tdp.c41_invert_mult_short_false",
    "Verif.Tdp.c41_short_modulus_false",
    "Verif.Tdp.c41_long_modulus_false"
   ],
   "note": "2048-bit keys and entry points other than invert_mult; the rest is refuted"
  },
  {
   "property": "C42",
   "status": "proved",
   "theorems": [
    "Verif.Io.c42_export_private",
    "Verif.Io.c42_import_private",
    "Verif.Io.c42_private",
    "Verif.Io.c42_private_2048",
    "Verif.Io.c42_public",
    "Verif.Io.c42_generated",
    "Verif.Io.c42_inverse_roundtrip",
    "Verif.Io.c42_inverse_safe",
    "Verif.Io.c42_import_pkcs8",
    "Verif.Io.c42_import_private_safe",
    "Verif.Io.c42_import_public_safe",
    "Verif.Io.c42_private_false",
    "Verif.Utils.c42_deserialize_serialize",
    "Verif.Utils.c42_deserialize_bounds"
   ],
   "note": "every key that passes mbedtls_rsa_check_privkey/pubkey and whose export succeeds (always for 2048-bit keys with a reduced exponent, in particular generated ones); blinding values are not part of the exported key; c42_private_false is a key that can be imported but not exported"
  },
  {
   "property": "C43",
   "status": "proved",
   "theorems": [
    "Verif.Utils.c43_first"
   ],
   "note": "the two buffers together are smaller than the address space"
  },
  {
   "property": "C44",
   "status": "proved",
   "theorems": [
    "Verif.Io.c44_encode",
    "Verif.Io.c44_length",
    "Verif.Io.c44_decode",
    "Verif.Io.c44_roundtrip"
   ],
   "note": "inputs shorter than 2^60 bytes"
  },
  {
   "property": "C45",
   "status": "proved",
   "theorems": [
    "Verif.Io.c45_bounds",
    "Verif.Io.c45_alphabet"
   ],
   "note": "inputs shorter than 2^63 bytes"
  },
  {
   "property": "C46",
   "status": "partial",
   "theorems": [
    "Verif.Io.c46_len",
    "Verif.Io.c46_tag",
    "Verif.Io.c46_mpi_partial",
    "Verif.Io.c46_mpi_zero",
    "Verif.Io.c46_int_partial",
    "Verif.Io.c46_first_zero_false",
    "Verif.Io.c46_int_false"
   ],
   "note": "lengths, tags and positive big integers in full; small integers only below 256 (larger ones are truncated: c46_int_false); writing 0 as the first element reads past the buffer (c46_first_zero_false)"
  },
  {
   "property": "C47",
   "status": "proved",
   "theorems": [
    "Verif.Io.c47_len",
    "Verif.Io.c47_tag",
    "Verif.Io.c47_int",
    "Verif.Io.c47_int_range",
    "Verif.Io.c47_mpi",
    "Verif.Io.c47_bits",
    "Verif.Io.c47_alg"
   ],
   "note": ""
  },
  {
   "property": "C48",
   "status": "proved",
   "theorems": [
    "Verif.Io.c48_write",
    "Verif.Io.c48_read_safe",
    "Verif.Io.c48_read",
    "Verif.Io.c48_roundtrip"
   ],
   "note": "no allocation failure; strstr by its specification"
  },
  {
   "property": "C49",
   "status": "proved",
   "theorems": [
    "Verif.Ppke.c49_decrypt",
    "Verif.Ppke.c49_punctured",
    "Verif.Ppke.c49_collision",
    "Verif.Ppke.c49_encrypt",
    "Verif.Ppke.c49_blind"
   ],
   "note": "RELIC (groups, bilinear pairing, encodings, gcd) by its laws (Grp.Ok); randomness as arguments; colliding hashes throw (c49_collision)"
  },
  {
   "property": "C50",
   "status": "proved",
   "theorems": [
    "Verif.Ppke.c50_order",
    "Verif.Ppke.c50_puncture",
    "Verif.Ppke.c50_puncture_total",
    "Verif.Ppke.c50_encrypt_public"
   ],
   "note": "same laws as C49"
  },
  {
   "property": "C51",
   "status": "partial",
   "theorems": [
    "Verif.Ppke.c51_reserved_partial",
    "Verif.Ppke.c51_extract",
    "Verif.Ppke.c51_share_roundtrip",
    "Verif.Ppke.c51_ct_roundtrip",
    "Verif.Ppke.c51_inc_puncture_false"
   ],
   "note": "incremental puncturing on the reserved tag throws nothing: it fails an assertion, or makes a share without assertions (c51_inc_puncture_false); points at infinity cannot be serialized"
  },
  {
   "property": "C52",
   "status": "proved",
   "theorems": [
    "Verif.Ppke.c52_labels",
    "Verif.Ppke.c52_independent"
   ],
   "note": ""
  },
  {
   "property": "C53",
   "status": "partial",
   "theorems": [
    "Verif.Cipher.c53_deserialize_partial",
    "Verif.Cipher.c53_roundtrip",
    "Verif.Cipher.c53_cipher_count_false",
    "Verif.Cipher.c53_unavailable"
   ],
   "note": "all true except the byte count of Cipher::deserialize, which is added to the value passed in (proved)"
  },
  {
   "property": "C54",
   "status": "proved",
   "theorems": [
    "Verif.Bignum.c54_write",
    "Verif.Bignum.c54_size",
    "Verif.Bignum.c54_read",
    "Verif.Bignum.c54_zeros",
    "Verif.Bignum.c54_roundtrip",
    "Verif.Bignum.c54_model_write",
    "Verif.Bignum.c54_model_read",
    "Verif.Bignum.c54_sign_false"
   ],
   "note": "the sign is not stored (c54_sign_false); memory is available up to MBEDTLS_MPI_MAX_LIMBS limbs"
  },
  {
   "property": "C55",
   "status": "proved",
   "theorems": [
    "Verif.Bignum.c55_add",
    "Verif.Bignum.c55_sub",
    "Verif.Bignum.c55_add_int",
    "Verif.Bignum.c55_sub_int",
    "Verif.Bignum.c55_abs",
    "Verif.Bignum.c55_mul",
    "Verif.Bignum.c55_limbs",
    "Verif.Bignum.c55_mul_int",
    "Verif.Bignum.c55_bitlen",
    "Verif.Bignum.c55_shift_left",
    "Verif.Bignum.c55_shift_left_false",
    "Verif.Bignum.c55_shift_right",
    "Verif.Bignum.c55_compare",
    "Verif.Bignum.c55_bits"
   ],
   "note": "results beyond MBEDTLS_MPI_MAX_LIMBS limbs are refused; shift counts within 640000 of 2^64 overflow (c55_shift_left_false)"
  },
  {
   "property": "C56",
   "status": "partial",
   "theorems": [
    "Verif.Bignum.c56_exp",
    "Verif.Bignum.c56_exp_congruent_partial",
    "Verif.Bignum.c56_exp_refuse",
    "Verif.Bignum.c56_exp_negative_false",
    "Verif.Bignum.c56_exp_null_false",
    "Verif.Bignum.c56_model_exp",
    "Verif.Bignum.c56_inv",
    "Verif.Bignum.c56_inv_unique",
    "Verif.Bignum.c56_model_inv",
    "Verif.Bignum.c56_gcd_partial",
    "Verif.Bignum.c56_gcd_zero_false",
    "Verif.Bignum.c56_model_gcd"
   ],
   "note": "exponentiation proved for non-negative bases with limbs; for a negative base the result is congruent but may be N instead of 0, and a base without limbs is dereferenced; the inverse is proved completely"
  },
  {
   "property": "C57",
   "status": "partial",
   "theorems": [
    "Verif.RCPrf.c57_eval_range_agrees_partial",
    "Verif.RCPrf.c57_unaligned_false"
   ],
   "note": "property is false for unaligned elements, which the constructors accept"
  },
  {
   "property": "C58",
   "status": "partial",
   "theorems": [
    "Verif.Prg.c58_consumed_partial",
    "Verif.Prg.c58_no_keys_false"
   ],
   "note": "false for derive_keys with n_keys = 0, which leaves the key usable (counterexample proved)"
  },
  {
   "property": "C59",
   "status": "partial",
   "theorems": [
    "Verif.Key.c59_disjoint_partial",
    "Verif.Key.c59_shared_false"
   ],
   "note": "true for distinct objects; false for a shared object (concrete schedules that fault or throw)"
  },
  {
   "property": "C60",
   "status": "partial",
   "theorems": [
    "Verif.Wrapper.c60_released_partial",
    "Verif.Wrapper.c60_leak_false"
   ],
   "note": "false for the code: every refusal after the length check leaks the buffer (proved)"
  },
  {
   "property": "C61",
   "status": "proved",
   "theorems": [
    "Verif.Wrapper.c61_prg",
    "Verif.Wrapper.c61_mac",
    "Verif.Wrapper.c61_cipher",
    "Verif.Wrapper.c61_wrapper"
   ],
   "note": "memory locking enabled (the default): reading an empty key throws; Prp shares the Cipher treatment of its key in the at-rest model (C22)"
  },
  {
   "property": "C62",
   "status": "proved",
   "theorems": [
    "Verif.Aez.c62_schedule",
    "Verif.Aez.c62_doubling",
    "Verif.Aez.c62_offsets",
    "Verif.Aez.c62_pair_offset",
    "Verif.Aez.c62_pair_value"
   ],
   "note": ""
  },
  {
   "property": "C63",
   "status": "partial",
   "theorems": [
    "Verif.Bignum.c63_div",
    "Verif.Bignum.c63_div_zero",
    "Verif.Bignum.c63_div_long",
    "Verif.Bignum.c63_mod",
    "Verif.Bignum.c63_model",
    "Verif.Bignum.c63_mod_int_partial",
    "Verif.Bignum.c63_mod_int_false",
    "Verif.Bignum.c63_mod_int_null_false",
    "Verif.Bignum.c63_div_alias_false",
    "Verif.Bignum.c63_div_alias_small_false"
   ],
   "note": "div_mpi and mod_mpi proved; mod_int is wrong for divisors above 2^32 and dereferences null modulo 2 for an integer without limbs; the quotient may not be written over the dividend"
  },
  {
   "property": "C64",
   "status": "partial",
   "theorems": [
    "Verif.Bignum.c64_accepted",
    "Verif.Bignum.c64_accepted_prime",
    "Verif.Bignum.c64_composite_quarter",
    "Verif.Bignum.c64_rabin",
    "Verif.Bignum.c64_prime_accepted_partial",
    "Verif.Bignum.c64_outcomes",
    "Verif.Bignum.c64_small",
    "Verif.Bignum.c64_const_accepted",
    "Verif.Bignum.c64_accepted_prime_false",
    "Verif.Bignum.c64_bases_high",
    "Verif.Bignum.c64_fermat_rejected",
    "Verif.Bignum.c64_prime_accepted_false"
   ],
   "note": "acceptance, the quarter bound and the outcomes proved; primes are accepted if the generator gives usable bases (partial), because bases are shifted to the length of n-1 and primes such as 65537 are then always rejected (c64_prime_accepted_false)"
  },
  {
   "property": "C65",
   "status": "proved",
   "theorems": [
    "Verif.Bignum.c65_sizes",
    "Verif.Bignum.c65_result",
    "Verif.Bignum.c65_small_prime",
    "Verif.Bignum.c65_result_safe",
    "Verif.Bignum.c65_no_ub",
    "Verif.Bignum.c65_ends",
    "Verif.Bignum.c65_two_bits",
    "Verif.Bignum.c65_bits_false",
    "Verif.Bignum.c65_one"
   ],
   "note": "the result may have nbits+1 bits (c65_bits_false); the search for a safe prime may return 1, which is no error code (c65_one)"
  },
  {
   "property": "C66",
   "status": "proved",
   "theorems": [
    "Verif.Rsa.c66_history",
    "Verif.Rsa.c66_inverse",
    "Verif.Rsa.c66_from_string",
    "Verif.Rsa.c66_string_outcomes"
   ],
   "note": "moduli of 256 bytes, as in the interface; the random source does not fail (a failure is C37); generated keys: C67"
  },
  {
   "property": "C67",
   "status": "proved",
   "theorems": [
    "Verif.Rsa.c67_outcomes",
    "Verif.Rsa.c67_sizes",
    "Verif.Rsa.c67_generated",
    "Verif.Rsa.c67_first_pair"
   ],
   "note": "sizes up to 8192 bits; a search that has not ended within the step bounds of the model has no result"
  },
  {
   "property": "C68",
   "status": "proved",
   "theorems": [
    "Verif.Rsa.c68_pool",
    "Verif.Rsa.c68_sizes"
   ],
   "note": "order 0 and size 1 are excluded (C39)"
  },
  {
   "property": "C69",
   "status": "partial",
   "theorems": [
    "Verif.Rsa.c69_public",
    "Verif.Rsa.c69_copy_false",
    "Verif.Rsa.c69_assign_false"
   ],
   "note": "proved for objects made from strings; false in general: the Montgomery constant is copied although the number of limbs of the modulus changes (two counterexamples), which the public interface does not reach"
  },
  {
   "property": "C70",
   "status": "proved",
   "theorems": [
    "Verif.Aez.c70_string",
    "Verif.Aez.c70_buffer",
    "Verif.Aez.c70_integer",
    "Verif.Aez.c70_inverse",
    "Verif.Aez.c70_aes"
   ],
   "note": "the specification (Aez/Spec.lean) is written from the description of AEZ v4; that the instruction aesenc computes the AES round is trusted"
  },
  {
   "property": "C71",
   "status": "partial",
   "theorems": [
    "Verif.Tdp.OpenSsl.c71_eval",
    "Verif.Tdp.OpenSsl.c71_generate",
    "Verif.Tdp.OpenSsl.c71_sample",
    "Verif.Tdp.OpenSsl.c71_inverse",
    "Verif.Tdp.OpenSsl.c71_invert",
    "Verif.Tdp.OpenSsl.c71_invert_refuses",
    "Verif.Tdp.OpenSsl.c71_invert_array_false",
    "Verif.Tdp.OpenSsl.c71_invert_mult",
    "Verif.Tdp.OpenSsl.c71_pool",
    "Verif.Tdp.OpenSsl.c71_pool_large_false",
    "Verif.Tdp.OpenSsl.c71_pool_size_false",
    "Verif.Tdp.OpenSsl.c71_pool_edges_false",
    "Verif.Tdp.OpenSsl.c71_copy",
    "Verif.Tdp.OpenSsl.c71_serialize_false"
   ],
   "note": "OpenSSL 1.0 functions by their documentation; false for arrays not below the modulus (inversion, pools) and for pools of 128 keys and more, where the code ignores return values and returns uninitialised arrays, and for serialization (PKCS 8 text is written, PKCS 1 text is searched for)"
  },
  {
   "property": "C72",
   "status": "proved",
   "theorems": [
    "Verif.Rsa.c72_import_private",
    "Verif.Rsa.c72_import_public",
    "Verif.Rsa.c72_export_private",
    "Verif.Rsa.c72_export_public",
    "Verif.Rsa.c72_reload",
    "Verif.Rsa.c72_reload_public",
    "Verif.Rsa.c72_history",
    "Verif.Rsa.c72_from_text",
    "Verif.Rsa.c72_public",
    "Verif.Rsa.c72_pool",
    "Verif.Rsa.c72_generated",
    "Verif.Rsa.c72_export_false"
   ],
   "note": "texts up to 34999 bytes; c72_export_false shows that a key accepted with a longer private exponent cannot be written, which is why the statement bounds it"
  },
  {
   "property": "C73",
   "status": "partial",
   "theorems": [
    "Verif.Bignum.c73_read",
    "Verif.Bignum.c73_read_all",
    "Verif.Bignum.c73_read_hex",
    "Verif.Bignum.c73_read_sound",
    "Verif.Bignum.c73_read_invalid",
    "Verif.Bignum.c73_read_safe",
    "Verif.Bignum.c73_radix",
    "Verif.Bignum.c73_write",
    "Verif.Bignum.c73_roundtrip",
    "Verif.Bignum.c73_write_long",
    "Verif.Bignum.c73_write_null_false",
    "Verif.Bignum.c73_write_null_hex"
   ],
   "note": "proved for all integers with limbs; false for an integer without limbs in radix 2 (null pointer, c73_write_null_false)"
  },
  {
   "property": "C74",
   "status": "proved",
   "theorems": [
    "Verif.Bignum.c74_assign",
    "Verif.Bignum.c74_swap",
    "Verif.Bignum.c74_swap_always",
    "Verif.Bignum.c74_shrink",
    "Verif.Bignum.c74_div_int"
   ],
   "note": "that the selection looks the same for both conditions to an observer is C88"
  },
  {
   "property": "C75",
   "status": "proved",
   "theorems": [
    "Verif.RCPrf.c75_inside",
    "Verif.RCPrf.c75_outside",
    "Verif.RCPrf.c75_range_inside",
    "Verif.RCPrf.c75_range_outside",
    "Verif.RCPrf.c75_gen_inside",
    "Verif.RCPrf.c75_gen_outside",
    "Verif.RCPrf.c75_empty"
   ],
   "note": "an inverted range inside an inner element is not refused by generate_constrained_subkeys (see C10)"
  },
  {
   "property": "C76",
   "status": "partial",
   "theorems": [
    "Verif.Rsa.Threads.c76_results",
    "Verif.Rsa.Threads.c76_values",
    "Verif.Rsa.Threads.c76_returns",
    "Verif.Rsa.Threads.c76_no_race",
    "Verif.Rsa.Threads.c76_fills",
    "Verif.Rsa.Threads.c76_first_false",
    "Verif.Rsa.Threads.c76_torn_false",
    "Verif.Rsa.Threads.c76_alone",
    "Verif.Rsa.Threads.c76_invert_race",
    "Verif.Rsa.Threads.c76_invert_false",
    "Verif.Rsa.Threads.c76_wrong_false"
   ],
   "note": "the results of eval and invert_mult are proved for every interleaving if the copy of a cache stores the pointer last; on new objects these calls race, and with another order of the copy a call uses a torn structure; invert races always and returns wrong results without error (the locks are not compiled); sequential consistency; the first inversion, which draws the blinding values, is left out"
  },
  {
   "property": "C77",
   "status": "partial",
   "theorems": [
    "Verif.Key.Threads.c77_off",
    "Verif.Key.Threads.c77_serial",
    "Verif.Key.Threads.c77_values",
    "Verif.Key.Threads.c77_fault_false",
    "Verif.Key.Threads.c77_locked_false",
    "Verif.Key.Threads.c77_exposed_false",
    "Verif.Key.Threads.c77_race_false"
   ],
   "note": "proved without memory locking, for calls that do not overlap, and that there are no wrong values; with memory locking (the default) overlapping calls can end the process, throw \"Memory is locked\", or succeed and leave the key readable; sequential consistency"
  },
  {
   "property": "C78",
   "status": "partial",
   "theorems": [
    "Verif.Key.Life.c78_clean",
    "Verif.Key.Life.c78_history",
    "Verif.Key.Life.c78_end",
    "Verif.Key.Life.c78_start",
    "Verif.Key.Life.c78_plain",
    "Verif.Key.Life.c78_hmac",
    "Verif.Key.Life.c78_hmac_empty",
    "Verif.Key.Life.c78_rcprf",
    "Verif.Key.Life.c78_rcprf_refused",
    "Verif.Key.Life.c78_element",
    "Verif.Key.Life.c78_element_refused",
    "Verif.Key.Life.c78_prp",
    "Verif.Key.Life.c78_prp_new",
    "Verif.Key.Life.c78_wrapper",
    "Verif.Key.Life.c78_wrapper_empty",
    "Verif.Key.Life.c78_derive_static",
    "Verif.Key.Life.c78_derive_static_empty",
    "Verif.Key.Life.c78_derive_key",
    "Verif.Key.Life.c78_derive_key_static",
    "Verif.Key.Life.c78_derive_keys",
    "Verif.Key.Life.c78_derive_keys_static",
    "Verif.Key.Life.c78_no_keys_false",
    "Verif.Key.Life.c78_derive_keys_static_empty",
    "Verif.Key.Life.c78_duplicate",
    "Verif.Key.Life.c78_deserialize",
    "Verif.Key.Life.c78_generate",
    "Verif.Key.Life.c78_leaf",
    "Verif.Key.Life.c78_range",
    "Verif.Key.Life.c78_constrain",
    "Verif.Key.Life.c78_lost_false",
    "Verif.Key.Life.c78_lost_forever"
   ],
   "note": "proved for all listed functions on keys with a value, and for refused heights, null pointers and throwing callbacks; Prp(Key&&), derive_key and derive_keys of a moved-from object lose a buffer for ever, and derive_keys(Key&&, 0) does not take the key; std::bad_alloc and failing mprotect are left out"
  },
  {
   "property": "C79",
   "status": "proved",
   "theorems": [
    "Verif.Aez.c79_context",
    "Verif.Aez.c79_string",
    "Verif.Aez.c79_integer",
    "Verif.Aez.c79_memory",
    "Verif.Aez.c79_exchange",
    "Verif.Aez.c79_aes",
    "Verif.Aez.c79_double",
    "Verif.Aez.c79_shift",
    "Verif.Aez.c79_is_zero",
    "Verif.Aez.c79_masks",
    "Verif.Aez.c79_sll4_differs",
    "Verif.Aez.c79_aead_encrypt",
    "Verif.Aez.c79_aead_decrypt",
    "Verif.Aez.c79_aead_exchange",
    "Verif.Aez.c79_aead_aes_partial",
    "Verif.Aez.c79_setup"
   ],
   "note": "the ARM branch uses _mm_set1_epi32, which only x86 has (aez.c 648-651); it is read as the zero block. Unaligned vector accesses are taken as allowed"
  },
  {
   "property": "C80",
   "status": "proved",
   "theorems": [
    "Verif.Bignum.Kernel.c80_same",
    "Verif.Bignum.Kernel.c80_core",
    "Verif.Bignum.Kernel.c80_model",
    "Verif.Bignum.Kernel.c80_value"
   ],
   "note": "the effects of the ten instructions that the assembly uses are in the trusted base (ModelKernel.step); the clobber list lacks \"memory\" (finding 12), which is not modelled"
  },
  {
   "property": "C81",
   "status": "partial",
   "theorems": [
    "Verif.Bignum.c81_word",
    "Verif.Bignum.c81_word_partial",
    "Verif.Bignum.c81_shift_false",
    "Verif.Bignum.c81_wide",
    "Verif.Bignum.c81_overflow",
    "Verif.Bignum.c81_div",
    "Verif.Bignum.c81_div_value"
   ],
   "note": "the version on half words shifts by 64 bits for divisors from 2^63 on (undefined); right for every value of that shift, and not reached from mbedtls_mpi_div_mpi"
  },
  {
   "property": "C82",
   "status": "proved",
   "theorems": [
    "Verif.Bignum.Tape.c82_composite",
    "Verif.Bignum.Tape.c82_prime",
    "Verif.Bignum.Tape.c82_weight",
    "Verif.Bignum.Tape.c82_usable",
    "Verif.Bignum.Tape.c82_quarter",
    "Verif.Bignum.Tape.c82_rsa",
    "Verif.Bignum.Tape.c82_half",
    "Verif.Bignum.Tape.c82_prime_full"
   ],
   "note": "counts over all sequences of strings of random bytes; the source does not fail; for numbers just above a power of two the general bound of c82_composite can be useless, because the bases are shifted to the length of the number"
  },
  {
   "property": "C83",
   "status": "partial",
   "theorems": [
    "Verif.Lib.c83_no_ub",
    "Verif.Lib.c83_count",
    "Verif.Lib.c83_balanced",
    "Verif.Lib.c83_pairing",
    "Verif.Lib.c83_two_threads",
    "Verif.Lib.c83_ready_partial",
    "Verif.Lib.c83_unset_witness",
    "Verif.Lib.c83_unset_forever",
    "Verif.Lib.c83_undo_partial",
    "Verif.Lib.c83_avail",
    "Verif.Lib.c83_locks_partial",
    "Verif.Lib.c83_reinit_witness",
    "Verif.Lib.c83_stop_witness",
    "Verif.Lib.c83_null_witness"
   ],
   "note": "proved except: after a start in which setting the curve parameters failed, later starts return without parameters; a start while OpenSSL holds a lock, or in which the allocation of the mutexes fails, breaks the locks; with RELIC built as README.md says only the thread that called init_crypto_lib can use pairings, and no sequence of stops stops two threads"
  },
  {
   "property": "C84",
   "status": "partial",
   "theorems": [
    "Verif.Aez.Aead.c84_encrypt_partial",
    "Verif.Aez.Aead.c84_overread",
    "Verif.Aez.Aead.c84_wrap",
    "Verif.Aez.Aead.c84_decrypt_partial",
    "Verif.Aez.Aead.c84_spec",
    "Verif.Aez.Aead.c84_authentic_partial",
    "Verif.Aez.Aead.c84_roundtrip",
    "Verif.Aez.Aead.c84_empty",
    "Verif.Aez.Aead.c84_forgery",
    "Verif.Aez.Aead.c84_forgery_concrete",
    "Verif.Aez.Aead.c84_prp",
    "Verif.Aez.c84_setup",
    "Verif.Aez.c84_setup_bounds"
   ],
   "note": "proved except: encryption of 32 bytes and more needs readable bytes behind the message (undefined without them: c84_overread), the number of bytes must not wrap around (c84_wrap), and ciphertexts as long as the authentication bytes are compared the wrong way (c84_empty, c84_forgery). For ARMv8 by c79_aead_encrypt and c79_aead_decrypt"
  },
  {
   "property": "C85",
   "status": "partial",
   "theorems": [
    "Verif.Heap.c85_call",
    "Verif.Heap.c85_prog",
    "Verif.Heap.c85_client_partial",
    "Verif.Heap.c85_whole",
    "Verif.Heap.c85_eval_loses",
    "Verif.Heap.c85_ctor_loses",
    "Verif.Heap.c85_invertMult_loses",
    "Verif.Heap.c85_isPrime_loses",
    "Verif.Heap.c85_pem_residue",
    "Verif.Heap.c85_pool_assign_ub",
    "Verif.Heap.c85_pool_one_ub"
   ],
   "note": "proved except: memory is lost when an exception leaves a constructor or a member function of the permutations, and when mpi_miller_rabin gives up; PEM buffers are not erased; assignment of pools of different sizes and pools of size 1 are outside the clients because they are undefined (witnesses proved). Objects have nested lifetimes; index bounds inside blocks are the subject of the models of Bignum and Io"
  },
  {
   "property": "C86",
   "status": "partial",
   "theorems": [
    "Verif.Tdp.c86_history_partial",
    "Verif.Tdp.c86_refines",
    "Verif.Tdp.c86_defect",
    "Verif.Tdp.c86_sequence",
    "Verif.Tdp.c86_right_iff",
    "Verif.Tdp.c86_half_update",
    "Verif.Tdp.c86_half_drawn",
    "Verif.Tdp.c86_forever_false"
   ],
   "note": "proved for all histories in which no call stops between two stores to the blinding values; false otherwise: later calls return wrong messages without an error, by a factor that is given exactly (c86_sequence), for a concrete key for ever (c86_forever_false), and 0 when the first call failed early (c86_half_drawn)"
  },
  {
   "property": "C87",
   "status": "proved",
   "theorems": [
    "Verif.Aez.Traced.c87_refines",
    "Verif.Aez.Traced.c87_encrypt",
    "Verif.Aez.Traced.c87_decrypt",
    "Verif.Aez.Traced.c87_prp_refines",
    "Verif.Aez.Traced.c87_prp",
    "Verif.Aez.Traced.c87_rejection_visible"
   ],
   "note": "AES-NI branch; observer of branches and addresses; instructions without memory operands are assumed to take time independent of data; the locking of the key memory is not part of the trace; the traced functions have the results of the model of C84 (c87_refines) and of C14 (c87_prp_refines); that the hypothesis on acceptance is needed is c87_rejection_visible"
  },
  {
   "property": "C88",
   "status": "partial",
   "theorems": [
    "Verif.Bignum.Traced.c88_assign_partial",
    "Verif.Bignum.Traced.c88_swap_partial",
    "Verif.Bignum.Traced.c88_assign_refines",
    "Verif.Bignum.Traced.c88_swap_refines",
    "Verif.Bignum.Traced.c88_calls",
    "Verif.Bignum.Traced.c88_exponent",
    "Verif.Bignum.Traced.c88_exponent_unique",
    "Verif.Bignum.Traced.c88_factors",
    "Verif.Bignum.Traced.c88_base_exists",
    "Verif.Bignum.Traced.c88_carry",
    "Verif.Rsa.c88_inversion_reveals"
   ],
   "note": "proved for the conditional operations; false for exponentiation: the calls with their table entries determine the exponent exactly (c88_exponent), and with every valid key and all random numbers the blinded exponent of one inversion gives the factor P or an inverse exponent (c88_inversion_reveals); the carries of mpi_mul_hlp show as well (c88_carry)"
  },
  {
   "property": "C89",
   "status": "proved",
   "theorems": [
    "Verif.RCPrf.Game.c89_outside",
    "Verif.RCPrf.Game.c89_values",
    "Verif.RCPrf.Game.c89_hybrid",
    "Verif.RCPrf.Game.c89_view",
    "Verif.RCPrf.Game.c89_ideal",
    "Verif.RCPrf.Game.hybrid"
   ],
   "note": "exact averages over uniform keys; ranges and leaves are chosen in advance; the tests of pairs that an attack is turned into are given explicitly (PairTest); running times are not modelled"
  },
  {
   "property": "C90",
   "status": "proved",
   "theorems": [
    "Verif.Cipher.Game.c90_cipher",
    "Verif.Cipher.Game.c90_derived",
    "Verif.Cipher.Game.c90_code",
    "Verif.Cipher.Game.c90_forgery",
    "Verif.Cipher.Game.c90_messages"
   ],
   "note": "exact averages over uniform keys and salts; the key derivation and the authenticated encryption are parameters with contracts; the attacks on one key that an attack is turned into are given explicitly (Derived); running times are not modelled"
  },
  {
   "property": "C91",
   "status": "proved",
   "theorems": [
    "Verif.Wrapper.Game.c91_wrapper",
    "Verif.Wrapper.Game.c91_code",
    "Verif.Wrapper.Game.c91_forgery",
    "Verif.Wrapper.Game.c91_headers"
   ],
   "note": "exact averages over uniform keys and random bytes; the hash function and the key stream are parameters; the advantages are those of the explicit worlds sim and mid, in which the two PRFs and the key stream are only called; a blob of RCPrf<n> counts as returned for ConstrainedRCPrf<n>, whose header is the same (C28); running times are not modelled"
  },
  {
   "property": "C92",
   "status": "partial",
   "theorems": [
    "Verif.Rsa.c92_sample",
    "Verif.Rsa.c92_sample_exact",
    "Verif.Rsa.c92_generate",
    "Verif.Ppke.c92_random_exact",
    "Verif.Ppke.c92_random_false",
    "Verif.Ppke.c92_pseudorandom"
   ],
   "note": "proved for messages and pseudorandom scalars; for random scalars the code violates the property: exact distance proved, more than 11 % for the configured curve (c92_random_false); bn_rand is taken to give uniform bits, the order of the curve BN_P254 is taken from RELIC"
  },
  {
   "property": "C93",
   "status": "partial",
   "theorems": [
    "Verif.Mac.Game.c93_prf_partial",
    "Verif.Mac.Game.c93_advantage",
    "Verif.Rsa.c93_generate",
    "Verif.Mac.Game.c93_long_false",
    "Verif.Mac.Game.c93_sizes_false"
   ],
   "note": "proved up to 16384 bytes of output; beyond, and for one key with two output lengths, the code violates the property (counterexamples c93_long_false, c93_sizes_false); the hash function is a parameter; HMAC with a random hash function is the subject of C102"
  },
  {
   "property": "C94",
   "status": "proved",
   "theorems": [
    "Verif.RCPrf.Adapt.c94_adaptive",
    "Verif.RCPrf.Adapt.c94_values",
    "Verif.RCPrf.Adapt.c94_bounds",
    "Verif.RCPrf.Adapt.hyb_ideal",
    "Verif.RCPrf.Adapt.hyb_step",
    "Verif.RCPrf.Adapt.ideal_values",
    "Verif.RCPrf.Adapt.real_hyb"
   ],
   "note": "exact averages over uniform keys; the ranges are fixed beforehand, keys and values are fetched adaptively; the tests of pairs that an attack is turned into are given explicitly (BoundsAll); running times are not modelled"
  },
  {
   "property": "C95",
   "status": "proved",
   "theorems": [
    "Verif.Ppke.Game.c95_secrecy",
    "Verif.Ppke.Game.c95_reuse_false",
    "Verif.Ppke.Game.run_hyb",
    "Verif.Ppke.Game.sim_hyb",
    "Verif.Ppke.Game.hyb_steps",
    "Verif.Ppke.Game.hyb_hides",
    "Verif.Oracle.E_det",
    "Verif.Oracle.E_det_fresh"
   ],
   "note": "the tag is fixed beforehand; exact averages; the pairing enters through its laws (Grp.Ok) and the advantage of the given solvers; the scalar of encryptions is drawn from any number of values (the code draws it non-uniformly, see C92); c95_reuse_false shows what happens when the caller reuses the number of a puncture"
  },
  {
   "property": "C96",
   "status": "partial",
   "theorems": [
    "Verif.Relic.c96_scalars",
    "Verif.Relic.c96_residue",
    "Verif.Relic.c96_equal",
    "Verif.Relic.c96_bytes",
    "Verif.Relic.c96_group",
    "Verif.Relic.c96_target",
    "Verif.Relic.c96_and",
    "Verif.Relic.c96_int",
    "Verif.Relic.c96_agrees",
    "Verif.Relic.c96_subtract_false",
    "Verif.Relic.c96_multiply_false",
    "Verif.Relic.c96_least_int_false",
    "Verif.Relic.c96_hash_false",
    "Verif.Relic.c96_and_false"
   ],
   "note": "proved for programs without negative numbers, byte strings that reach the order and hashes equal to it, and for remainders and group elements in general; the code violates the rest (counterexamples proved). The functions of RELIC are modelled by the numbers that they compute, bn_mod, bn_gcd_ext and bn_mxp by contracts; capacity of numbers and negative shifts are not modelled"
  },
  {
   "property": "C97",
   "status": "partial",
   "theorems": [
    "Verif.Relic.c97_read_scalar",
    "Verif.Relic.c97_print_scalar_partial",
    "Verif.Relic.c97_print_scalar_false",
    "Verif.Relic.c97_print_point",
    "Verif.Relic.c97_print_point_false",
    "Verif.Relic.c97_print_target_partial",
    "Verif.Relic.c97_print_target_false",
    "Verif.Relic.c97_print_infinity",
    "Verif.Relic.c97_hash_inputs",
    "Verif.Relic.c97_hash_inputs_false"
   ],
   "note": "reading back, exact condition for undefined reads and separation of scalars proved; the code violates the rest (counterexamples proved). That bn_size_str counts the zero byte is taken from RELIC"
  },
  {
   "property": "C98",
   "status": "proved",
   "theorems": [
    "Verif.SetHash.Game.c98_collision",
    "Verif.SetHash.Game.c98_fixed",
    "Verif.SetHash.Game.c98_vectors",
    "Verif.SetHash.Game.c98_logarithms",
    "Verif.SetHash.Game.c98_multiples_false",
    "Verif.SetHash.Game.table_lazy",
    "Verif.SetHash.Game.hide",
    "Verif.SetHash.Game.chance_reduce"
   ],
   "note": "the hash function is a uniformly random table (random oracle); exact averages; running times are not modelled, the algorithm for logarithms is given explicitly and needs the preimages of points under from_uniform (Inverse); c98_multiples_false shows why multiplicities count modulo the order only"
  },
  {
   "property": "C99",
   "status": "partial",
   "theorems": [
    "Verif.Io.c99_bool",
    "Verif.Io.c99_text",
    "Verif.Io.c99_strings",
    "Verif.Io.c99_bits",
    "Verif.Io.c99_bits_short",
    "Verif.Io.c99_alg_null",
    "Verif.Io.c99_alg_par",
    "Verif.Io.c99_within",
    "Verif.Io.c99_header",
    "Verif.Io.c99_sequence_exact",
    "Verif.Io.c99_sequence_der",
    "Verif.Io.c99_sequence_safe",
    "Verif.Io.c99_bool_false",
    "Verif.Io.c99_bits_false",
    "Verif.Io.c99_alg_null_false",
    "Verif.Io.c99_sequence_empty_false"
   ],
   "note": "round trips, exact acceptance and safety proved; the parser is laxer than DER and leaves the node of the caller untouched for an empty sequence (counterexamples proved). A null pointer as source of a copy of length 0 is not modelled"
  }
 ]
}