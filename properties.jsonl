{"id": "C01", "title": "A constrained RC-PRF evaluates to the same value as the full key", "statement": "Let K be a range-constrained PRF of height h (2..63; height 64 is treated in C07) and let C be the object returned by constraining K to [min,max], where the call is accepted. For every leaf x with min <= x <= max, evaluating C at x succeeds and returns exactly the bytes that evaluating K at x returns.", "quantifier": "every key, every tree height, every accepted range, every leaf in it", "why_tests_cant": "There are up to 2^63 leaves and 2^125 ranges per height; tests cover a handful of heights and ranges, and the result depends on how the cover of the range is cut into subtrees.", "anchors": ["src/include/sse/crypto/rcprf.hpp: RCPrf::constrain", "src/include/sse/crypto/rcprf.hpp: RCPrf::generate_constrained_subkeys", "src/include/sse/crypto/rcprf.hpp: ConstrainedRCPrf::eval", "src/include/sse/crypto/rcprf.hpp: ConstrainedRCPrfInnerElement::eval", "src/include/sse/crypto/rcprf.hpp: RCPrfBase::generate_constrained_subkeys_from_node"]}
{"id": "C02", "title": "A constrained RC-PRF is useless outside its range", "statement": "For the constrained object C obtained by constraining K to [min,max]: evaluating C (single leaf, or any range that is not inside [min,max]) outside the range throws and returns no value, and no subtree key stored in C is the key of a tree node that has a leaf outside [min,max] below it.", "quantifier": "every key, height, accepted range, and every leaf or range of leaves", "why_tests_cant": "A single mis-cut subtree would leak PRF values of one unlucky range; exhaustive enumeration over 64-bit ranges is impossible.", "anchors": ["src/include/sse/crypto/rcprf.hpp: ConstrainedRCPrf::eval", "src/include/sse/crypto/rcprf.hpp: ConstrainedRCPrf::eval_range", "src/include/sse/crypto/rcprf.hpp: RCPrfBase::generate_constrained_subkeys_from_node"]}
{"id": "C03", "title": "Range evaluation visits each leaf once, in order, with the right value", "statement": "For a full RC-PRF and every range min <= max below the number of leaves 2^(h-1), eval_range calls the callback exactly max-min+1 times, with indices min, min+1, ..., max in this order, and the value passed for index i equals eval(i). No internal assertion fails on the way.", "quantifier": "every key, height 2..63 (height 64 is treated in C07) and range inside the tree", "why_tests_cant": "The recursion splits the range differently for every (min,max,height); tests only run small trees.", "anchors": ["src/include/sse/crypto/rcprf.hpp: RCPrf::eval_range", "src/include/sse/crypto/rcprf.hpp: RCPrfBase::derive_leaf_range"]}
{"id": "C04", "title": "Range evaluation of a constrained key agrees with the full key", "statement": "For C = K.constrain(min,max) and every sub-range [a,b] of [min,max], C.eval_range(a,b) calls back exactly on a, a+1, ..., b in this order with the values K.eval returns.", "quantifier": "every key, height, constrained range, sub-range", "why_tests_cant": "Combines the element cut of the constrained key with the recursive split inside each element; the case space is astronomically large.", "anchors": ["src/include/sse/crypto/rcprf.hpp: ConstrainedRCPrf::eval_range", "src/include/sse/crypto/rcprf.hpp: ConstrainedRCPrfInnerElement::eval_range", "src/include/sse/crypto/rcprf.hpp: ConstrainedRCPrfLeafElement::eval_range"]}
{"id": "C05", "title": "Constraining again is the same as constraining once", "statement": "Constraining C = K.constrain(min,max) to a sub-range [a,b] succeeds and gives an object that accepts exactly the leaves of [a,b] and evaluates on them as K does; hence it is indistinguishable by evaluation from K.constrain(a,b), for any number of successive constrain calls.", "quantifier": "every key, height, and every decreasing chain of ranges", "why_tests_cant": "Chains of constrain calls are unbounded and each level re-cuts inner subtrees.", "anchors": ["src/include/sse/crypto/rcprf.hpp: ConstrainedRCPrf::constrain", "src/include/sse/crypto/rcprf.hpp: ConstrainedRCPrf::generate_constrained_subkeys", "src/include/sse/crypto/rcprf.hpp: ConstrainedRCPrfInnerElement::generate_constrained_subkeys"]}
{"id": "C06", "title": "The constrained key is a sorted, gap-free, disjoint cover of logarithmic size", "statement": "The subtree keys produced for a range are in increasing leaf order, pairwise disjoint, contiguous, cover exactly the range, are aligned with the tree, and there are at most max(1, 2(h-2)) of them (one per side and level), so the serialized size is bounded accordingly.", "quantifier": "every height and range", "why_tests_cant": "Only a structural induction over the tree can give the bound for every range.", "anchors": ["src/include/sse/crypto/rcprf.hpp: RCPrfBase::generate_constrained_subkeys_from_node", "src/include/sse/crypto/rcprf.hpp: ConstrainedRCPrf::serialized_size"]}
{"id": "C07", "title": "RC-PRF evaluation rejects leaves outside the tree", "statement": "An RC-PRF of height h has 2^(h-1) leaves (the documented maximum leaf index); evaluating a leaf index above this maximum, alone or in a range, throws out_of_range, never returns the value of another leaf and never has undefined behaviour; and the height-1 and height-64 trees behave like all others.", "quantifier": "every height 1..64 and every 64-bit leaf index", "why_tests_cant": "The boundary depends on the height and concerns 2^64 indices; a test must guess the failing height/index pair.", "anchors": ["src/include/sse/crypto/rcprf.hpp: RCPrf::eval", "src/include/sse/crypto/rcprf.hpp: RCPrf::eval_range", "src/include/sse/crypto/rcprf.hpp: RCPrfBase::derive_leaf", "src/include/sse/crypto/rcprf.hpp: RCPrfParams::max_leaf_index"]}
{"id": "C08", "title": "Constrained RC-PRF serialization round-trips", "statement": "Serializing a non-empty constrained RC-PRF and deserializing the bytes (also when followed by other bytes) yields an object with the same height, range and elements, consumes exactly serialized_size bytes, and evaluates identically.", "quantifier": "every constrained object with up to 2^32-1 elements, for both supported output lengths, and any trailing bytes", "why_tests_cant": "Object shapes (number, kind and position of elements) are unbounded.", "anchors": ["src/include/sse/crypto/rcprf.hpp: ConstrainedRCPrf::serialize", "src/include/sse/crypto/rcprf.hpp: ConstrainedRCPrf::deserialize", "src/include/sse/crypto/rcprf.hpp: ConstrainedRCPrfElement::serialize_element_info"]}
{"id": "C09", "title": "RC-PRF serialization round-trips and rejects what it cannot have produced", "statement": "Deserializing a serialized RC-PRF gives back the same height and key and reads exactly 33 bytes; deserialization of arbitrary bytes either throws or yields an object whose height is in 1..64, and never reads past the input.", "quantifier": "every RC-PRF and every byte string", "why_tests_cant": "All byte strings of all lengths are inputs.", "anchors": ["src/include/sse/crypto/rcprf.hpp: RCPrf::serialize", "src/include/sse/crypto/rcprf.hpp: RCPrf::deserialize"]}
{"id": "C10", "title": "Inverted or outside ranges are rejected when constraining", "statement": "Constraining a full or constrained RC-PRF to [min,max] with min > max throws invalid_argument, and with bounds outside the object's range throws out_of_range; the call never returns an object and never hits undefined behaviour.", "quantifier": "every object, every pair of 64-bit bounds", "why_tests_cant": "2^128 pairs of bounds per object.", "anchors": ["src/include/sse/crypto/rcprf.hpp: RCPrf::generate_constrained_subkeys", "src/include/sse/crypto/rcprf.hpp: ConstrainedRCPrf::generate_constrained_subkeys", "src/include/sse/crypto/rcprf.hpp: ConstrainedRCPrf::constrain"]}
{"id": "C11", "title": "Assembling a constrained RC-PRF from elements is order independent and refuses gaps", "statement": "Building a constrained RC-PRF from a list of elements gives the same object for every ordering of the list, is accepted only if all tree heights agree and the leaf intervals are consecutive, and an accepted object covers exactly the union of the intervals of its elements.", "quantifier": "every finite list of elements, every permutation of it", "why_tests_cant": "Permutations and interval configurations are unbounded.", "anchors": ["src/include/sse/crypto/rcprf.hpp: ConstrainedRCPrf::ConstrainedRCPrf", "src/include/sse/crypto/rcprf.hpp: ConstrainedRCPrf::get_element_height"]}
{"id": "C12", "title": "PRG output is a window of one key-dependent stream", "statement": "For a PRG with key k, derive(offset,len) returns bytes offset .. offset+len-1 of one fixed byte stream that depends only on k (the ChaCha20 key stream), for every offset alignment and length.", "quantifier": "every key, every offset and length with offset+len within the stream", "why_tests_cant": "The code has three alignment cases; the offsets and lengths range over 64-bit integers.", "anchors": ["src/prg.cpp: prg_derivation", "src/prg.cpp: Prg::derive", "src/include/sse/crypto/prg.hpp: Prg"]}
{"id": "C13", "title": "Splitting a PRG derivation does not change it", "statement": "Deriving len1+len2 bytes at an offset equals deriving len1 bytes there followed by deriving len2 bytes at offset+len1; and all overloads (buffer, string, array, instance or one-shot) return the same bytes.", "quantifier": "every key, offset, and pair of lengths", "why_tests_cant": "Every way of cutting a window must agree, for all alignments.", "anchors": ["src/prg.cpp: prg_derivation", "src/include/sse/crypto/prg.hpp: Prg::derive"]}
{"id": "C14", "title": "Derived keys use pairwise disjoint stream windows and bulk derivation agrees with single derivation", "statement": "derive_key(i) of a K-byte key is the stream window [iK,(i+1)K); windows of different indices do not overlap; element j of derive_keys(n,off) equals derive_key(off+j); the static and instance versions agree.", "quantifier": "every key, key length, index, count", "why_tests_cant": "Indices and counts range over 64-bit integers.", "anchors": ["src/include/sse/crypto/prg.hpp: Prg::derive_key", "src/include/sse/crypto/prg.hpp: Prg::derive_keys"]}
{"id": "C15", "title": "Key index overflow is rejected, never wrapped", "statement": "derive_key and derive_keys throw invalid_argument when the byte offset of the requested key would not fit in size_t; whenever they succeed the offset used is the exact product index*K.", "quantifier": "every key size and 64-bit index", "why_tests_cant": "Overflow happens only for astronomically large indices; each key length has its own limit.", "anchors": ["src/include/sse/crypto/prg.hpp: Prg::derive_key", "src/include/sse/crypto/prg.hpp: Prg::derive_keys"]}
{"id": "C16", "title": "HMAC is RFC 2104 HMAC and truncation is a prefix", "statement": "HMac over a hash with block size 128 returns H((K xor opad) || H((K xor ipad) || m)) for the zero-padded key; asking for fewer bytes returns a prefix of the full tag; asking for more than the digest size, or passing null pointers, throws invalid_argument; all overloads agree.", "quantifier": "every key of every supported length, message, output length", "why_tests_cant": "All messages and key lengths.", "anchors": ["src/include/sse/crypto/hmac.hpp: HMac::hmac"]}
{"id": "C17", "title": "PRF output is the documented HMAC expansion", "statement": "prf(m) has exactly NBYTES bytes; for NBYTES <= 64 it is the truncated HMAC of m; for longer outputs byte block i (64 bytes) is HMAC(m || byte i), the last block truncated; all overloads (pointer/length, string, array) agree and derive_key returns a key holding exactly these bytes.", "quantifier": "every key, message, output length NBYTES for which the code terminates", "why_tests_cant": "Messages and output lengths are unbounded.", "anchors": ["src/include/sse/crypto/prf.hpp: Prf::prf", "src/include/sse/crypto/prf.hpp: Prf::derive_key"]}
{"id": "C18", "title": "PRF blocks use pairwise different counters", "statement": "For every output length the PRF terminates and no two 64-byte output blocks are computed from the same (message, counter) pair.", "quantifier": "every output length NBYTES", "why_tests_cant": "NBYTES is a template parameter, tests instantiate a few small values; the 8-bit counter and 16-bit position wrap only for large ones.", "anchors": ["src/include/sse/crypto/prf.hpp: Prf::prf"]}
{"id": "C19", "title": "Hash wrappers return prefixes of the digest and validate their arguments", "statement": "hash(in,len,out_len) returns the first out_len bytes of the digest of exactly the len input bytes; out_len above the digest size and null buffers throw invalid_argument; the string versions agree with the buffer versions.", "quantifier": "every input, output length", "why_tests_cant": "All inputs and lengths.", "anchors": ["src/hash.cpp: Hash::hash", "src/include/sse/crypto/hash.hpp: Hash"]}
{"id": "C20", "title": "A key object's secret has one owner and is never touched after it was given away or erased", "statement": "Through any sequence of constructions, moves, move-assignments, lock, unlock, erase, and destructions of key objects: each allocated secret buffer is owned by at most one object, is wiped and freed exactly once, moved-from and erased objects are empty, and reading an empty or locked key is refused rather than dereferencing memory.", "quantifier": "every finite sequence of key operations on any number of key objects", "why_tests_cant": "Histories are unbounded; use-after-free and double-free appear only in particular interleavings.", "anchors": ["src/include/sse/crypto/key.hpp: Key"]}
{"id": "C21", "title": "Importing raw bytes into a key preserves them and wipes the source", "statement": "Constructing a key from a caller buffer stores exactly the N first bytes, overwrites exactly these N bytes of the buffer with zero, leaves the rest of the buffer unchanged, and the stored content stays constant through lock/unlock/move.", "quantifier": "every key size, buffer content and subsequent history", "why_tests_cant": "All buffers and histories.", "anchors": ["src/include/sse/crypto/key.hpp: Key::Key"]}
{"id": "C22", "title": "Secret memory is protected at rest", "statement": "With memory locking enabled, after any sequence of public operations (also failing ones) on Prf, HMac, Prg, Cipher and Prp objects the secret key memory is access-protected again when the call returns or throws.", "quantifier": "every sequence of API calls with arbitrary arguments including rejected ones", "why_tests_cant": "Must hold after every history including exceptional exits.", "anchors": ["src/prg.cpp: Prg::derive", "src/prp.cpp: Prp::encrypt", "src/prp.cpp: Prp::decrypt", "src/cipher.cpp: Cipher::encrypt", "src/include/sse/crypto/hmac.hpp: HMac::hmac"]}
{"id": "C23", "title": "Decrypting an encryption returns the message", "statement": "For every key and every non-empty message (of any length for the buffer interface), decrypting the output of encrypt returns the message, and the ciphertext is exactly 32 bytes longer than the message.", "quantifier": "every key, message, nonce drawn by the RNG", "why_tests_cant": "All messages and all random nonces.", "anchors": ["src/cipher.cpp: Cipher::encrypt", "src/cipher.cpp: Cipher::decrypt"]}
{"id": "C24", "title": "Malformed ciphertexts are rejected and nothing is returned", "statement": "Decrypt throws invalid_argument on inputs too short to hold nonce and tag, throws runtime_error when the authentication tag does not verify, and otherwise returns exactly the authenticated plaintext; encrypt(string) rejects the empty message; decrypt never reads outside its input.", "quantifier": "every byte string as ciphertext", "why_tests_cant": "All byte strings.", "anchors": ["src/cipher.cpp: Cipher::decrypt", "src/include/sse/crypto/cipher.hpp: Cipher::plaintext_length"]}
{"id": "C25", "title": "Each encryption uses a message key and nonce determined by the fresh 16 random bytes only", "statement": "Two encryptions under one key collide in (derived key, AEAD nonce) only if the salts drawn from the RNG are equal or the key derivation collides; the salt is transmitted unmodified as the first 16 ciphertext bytes and the decryptor derives the same key and nonce from it.", "quantifier": "every pair of encryptions", "why_tests_cant": "Statement about all pairs of executions.", "anchors": ["src/cipher.cpp: Cipher::encrypt", "src/cipher.cpp: Cipher::decrypt"]}
{"id": "C26", "title": "Unwrapping a wrapped object gives an equivalent object", "statement": "For every wrappable object (PRF, PRG, cipher, PRP, RC-PRF, constrained RC-PRF, TDP inverse), unwrap(wrap(x)) succeeds and returns an object with the same serialized state, under the same wrapping key.", "quantifier": "every object, wrapping key, random IV", "why_tests_cant": "All objects, keys and IVs.", "anchors": ["src/include/sse/crypto/wrapper.hpp: Wrapper::wrap", "src/include/sse/crypto/wrapper.hpp: Wrapper::unwrap"]}
{"id": "C27", "title": "Whatever unwrap accepts is exactly a wrap of the returned object", "statement": "If unwrap<T>(s) succeeds, then s is byte-for-byte the wrapping, with the IV it starts with, of a serialization of the returned object of type T: no other byte string is accepted (unless the tag PRF collides), the type and parameters bound in the tag are those of T, and truncated or extended strings are rejected.", "quantifier": "every byte string, every target type", "why_tests_cant": "All byte strings are inputs.", "anchors": ["src/include/sse/crypto/wrapper.hpp: Wrapper::unwrap"]}
{"id": "C28", "title": "A blob wrapped as one type cannot be unwrapped as another", "statement": "Unwrapping a blob produced by wrapping an object of type T as type U fails unless T=U (same class and same output length), unless the tag PRF collides.", "quantifier": "every pair of wrappable types, every object, key, IV", "why_tests_cant": "All pairs of types and parameters, including template parameters.", "anchors": ["src/include/sse/crypto/wrapper.hpp: Wrapper::wrap", "src/include/sse/crypto/wrapper.hpp: Wrapper::unwrap", "src/include/sse/crypto/wrapper.hpp: Wrapper::TypeByte"]}
{"id": "C29", "title": "Wrapping keys for tag and encryption are separated", "statement": "The tagging key and the encryption key of a wrapper are outputs of the PRF keyed with the wrapping key on two different inputs, so they are equal only if the PRF collides on them; two wrappers built from equal keys behave identically.", "quantifier": "every wrapping key", "why_tests_cant": "All keys.", "anchors": ["src/wrapper.cpp: Wrapper::Wrapper"]}
{"id": "C30", "title": "The PRP is invertible on byte strings of every length", "statement": "For every key and every byte string of length 1 up to 2^32-1, decrypting the encryption returns the string, encrypting the decryption returns the string, and lengths are preserved: encryption is a permutation of the strings of each length.", "quantifier": "every key and every string of every length", "why_tests_cant": "The cipher uses four code paths depending on the length (tiny odd/even, fragments, 2/4/8/16-block groups); all lengths and contents must work.", "anchors": ["src/prp.cpp: Prp::encrypt", "src/prp.cpp: Prp::decrypt", "src/aez/aez.c: aez_encrypt", "src/aez/aez.c: aez_decrypt", "src/aez/aez.c: cipher_aez_core", "src/aez/aez.c: cipher_aez_tiny"]}
{"id": "C31", "title": "The integer PRPs are permutations of the 32-bit and 64-bit integers", "statement": "encrypt(uint32) and encrypt_64(uint64) are bijections whose inverses are the corresponding decrypt functions.", "quantifier": "every key, every 32-bit and 64-bit integer", "why_tests_cant": "2^64 inputs per key.", "anchors": ["src/prp.cpp: Prp::encrypt(uint32_t)", "src/prp.cpp: Prp::encrypt_64", "src/prp.cpp: Prp::decrypt_64"]}
{"id": "C32", "title": "The AEZ tiny cipher and core never access memory outside their buffers", "statement": "For every message length the block loads and stores of the AEZ code stay within the source, destination and local buffers, and every destination byte is written.", "quantifier": "every length 0..2^32-1", "why_tests_cant": "Each length has a different access pattern.", "anchors": ["src/aez/aez.c: cipher_aez_core", "src/aez/aez.c: cipher_aez_tiny", "src/aez/aez.c: pass_one", "src/aez/aez.c: pass_two"]}
{"id": "C33", "title": "Set hashes do not depend on insertion order", "statement": "Adding the elements of a list to a set hash gives the same state for every permutation of the list, and constructing from a vector equals adding the elements one by one.", "quantifier": "every list of byte strings, every permutation", "why_tests_cant": "Unbounded lists and factorially many permutations.", "anchors": ["src/set_hash.cpp: SetHash::add_element", "src/set_hash.cpp: SetHash::SetHash"]}
{"id": "C34", "title": "Removing an element undoes adding it", "statement": "remove_element(x) after add_element(x), with any other additions and removals in between, leaves the state as if both had not happened; the state depends only on the signed multiplicity of each element.", "quantifier": "every history of additions and removals", "why_tests_cant": "Histories are unbounded.", "anchors": ["src/set_hash.cpp: SetHash::remove_element", "src/set_hash.cpp: SetHash::add_element"]}
{"id": "C35", "title": "Adding a set hash is multiset union, removing it multiset difference", "statement": "add_set(h2) gives the hash of the sum of the two multisets, remove_set(h2) of the difference, also when the operand is the object itself.", "quantifier": "every pair of histories", "why_tests_cant": "Unbounded histories.", "anchors": ["src/set_hash.cpp: SetHash::add_set", "src/set_hash.cpp: SetHash::remove_set"]}
{"id": "C36", "title": "Every reachable set hash can be exported and re-imported", "statement": "The byte array returned by data() of any reachable set hash, including the empty one and one that returned to empty, is accepted by the constructor from bytes and gives an equal object.", "quantifier": "every reachable state", "why_tests_cant": "Reachable states are unbounded; the neutral element is a special case in validation.", "anchors": ["src/set_hash.cpp: SetHash::SetHash", "src/set_hash.cpp: SetHash::data"]}
{"id": "C37", "title": "The trapdoor inverts the permutation", "statement": "For a well-formed key and every message below the modulus, invert(eval(x)) = x and eval(invert(y)) = y; eval maps messages to messages below the modulus of the same encoded length.", "quantifier": "every well-formed key, every message below N", "why_tests_cant": "2^2048 messages per key.", "anchors": ["src/tdp_impl/tdp_impl_mbedtls.cpp: TdpImpl_mbedTLS::eval", "src/tdp_impl/tdp_impl_mbedtls.cpp: TdpInverseImpl_mbedTLS::invert", "src/mbedtls/rsa.c: mbedtls_rsa_private"]}
{"id": "C38", "title": "Multiple inversion equals iterated inversion", "statement": "invert_mult(y,k) equals applying invert k times, for every order k including 0, 1 and 2^32-1, and eval applied k times to the result gives back y.", "quantifier": "every well-formed key, message below N, order", "why_tests_cant": "Orders range over 32-bit integers and the implementation uses a different algorithm (exponent powers and CRT).", "anchors": ["src/tdp_impl/tdp_impl_mbedtls.cpp: TdpInverseImpl_mbedTLS::invert_mult", "src/tdp_impl/tdp_impl_mbedtls.cpp: insecure_mod_exp"]}
{"id": "C39", "title": "Pooled evaluation equals iterated evaluation", "statement": "For a pool of size n and every order 1 <= k <= n, eval(x,k) equals applying eval k times; orders outside this range throw; constructing a pool with an unusable size throws instead of misbehaving.", "quantifier": "every public key, pool size 0..255, order, message", "why_tests_cant": "Each pool size/order/exponent combination; memory errors occur at extreme sizes.", "anchors": ["src/tdp_impl/tdp_impl_mbedtls.cpp: TdpMultPoolImpl_mbedTLS"]}
{"id": "C40", "title": "Generated messages are valid, deterministic and in range", "statement": "generate(key,seed) depends only on the key bytes and the seed, and both generate and sample return the fixed-length encoding of a number below the modulus; buffer and string versions agree.", "quantifier": "every key, seed, RNG output", "why_tests_cant": "All seeds and random outputs.", "anchors": ["src/tdp_impl/tdp_impl_mbedtls.cpp: TdpImpl_mbedTLS::generate_array", "src/tdp_impl/tdp_impl_mbedtls.cpp: TdpImpl_mbedTLS::sample_array"]}
{"id": "C41", "title": "TDP entry points reject inputs of the wrong length instead of over-reading", "statement": "Every string entry point of the TDP classes given a string whose length differs from the message size throws invalid_argument and never reads outside the string, whatever modulus size the key has.", "quantifier": "every input length and every accepted key size", "why_tests_cant": "Lengths and key sizes are unbounded; over-reads may not crash.", "anchors": ["src/tdp_impl/tdp_impl_mbedtls.cpp: TdpImpl_mbedTLS::eval", "src/tdp_impl/tdp_impl_mbedtls.cpp: TdpInverseImpl_mbedTLS::invert", "src/tdp_impl/tdp_impl_mbedtls.cpp: TdpInverseImpl_mbedTLS::invert_mult"]}
{"id": "C42", "title": "Private and public TDP keys survive export and import", "statement": "Importing an exported private key (PEM) or public key gives a key with the same parameters, and the wrapper-level serialization of a TDP inverse can be parsed back from a buffer with trailing data, reporting exactly the number of bytes written.", "quantifier": "every well-formed RSA key and every trailing data", "why_tests_cant": "All keys; PEM/base64/DER lengths vary with the numbers.", "anchors": ["src/tdp.cpp: TdpInverse::serialize", "src/tdp.cpp: TdpInverse::deserialize", "src/mbedtls/rsa_io.c: mbedtls_rsa_write_key_pem", "src/mbedtls/pkparse.c: mbedtls_pk_parse_key"]}
{"id": "C43", "title": "Substring search returns the first occurrence and stays in bounds", "statement": "strstrn_uint8(s,n,t,m) returns the first position at which t occurs in s, or null if it does not occur, and reads only the n bytes of s and the m bytes of t.", "quantifier": "every pair of byte strings", "why_tests_cant": "The backtracking search must be right for all overlapping patterns.", "anchors": ["src/utils.cpp: strstrn_uint8"]}
{"id": "C44", "title": "Base64 decoding inverts encoding", "statement": "Decoding the base64 encoding of any byte string, also with the line breaks inserted by the PEM writer, returns the string; encoded length is 4*ceil(n/3).", "quantifier": "every byte string", "why_tests_cant": "All byte strings and all lengths modulo 3.", "anchors": ["src/mbedtls/base64.c: mbedtls_base64_encode", "src/mbedtls/base64.c: mbedtls_base64_decode"]}
{"id": "C45", "title": "Base64 decoding never writes past the announced size", "statement": "For every input, whenever decoding succeeds the number of bytes written is at most the size the function announced in the sizing call, so the buffer allocated by the PEM reader cannot overflow; characters outside the alphabet are rejected.", "quantifier": "every byte string, valid or malicious", "why_tests_cant": "All malformed inputs.", "anchors": ["src/mbedtls/base64.c: mbedtls_base64_decode", "src/mbedtls/pem.c: mbedtls_pem_read_buffer"]}
{"id": "C46", "title": "DER lengths, tags and integers round-trip", "statement": "Reading back a DER length, tag-length header, small integer or big integer written by the ASN.1 writer returns the same value and leaves the cursor at the end of the element.", "quantifier": "every length up to 2^32-1 and every non-negative integer that fits the buffer", "why_tests_cant": "Five length forms and unbounded integers.", "anchors": ["src/mbedtls/asn1write.c: mbedtls_asn1_write_len", "src/mbedtls/asn1parse.c: mbedtls_asn1_get_len", "src/mbedtls/asn1write.c: mbedtls_asn1_write_mpi", "src/mbedtls/asn1parse.c: mbedtls_asn1_get_mpi"]}
{"id": "C47", "title": "The ASN.1 parser never leaves its buffer", "statement": "For every input buffer, each ASN.1 get function either fails or leaves the cursor between its old position and the end of the buffer with the announced content length inside the buffer; it reads only bytes of the buffer.", "quantifier": "every byte string", "why_tests_cant": "All malicious inputs.", "anchors": ["src/mbedtls/asn1parse.c: mbedtls_asn1_get_len", "src/mbedtls/asn1parse.c: mbedtls_asn1_get_tag", "src/mbedtls/asn1parse.c: mbedtls_asn1_get_mpi", "src/mbedtls/asn1parse.c: mbedtls_asn1_get_alg"]}
{"id": "C48", "title": "PEM writing fits the announced buffer and PEM reading inverts it", "statement": "The PEM writer never writes more than buf_len bytes, and reading the written text with the same header and footer returns the original DER bytes.", "quantifier": "every DER byte string and buffer size", "why_tests_cant": "All lengths (line-wrapping boundaries) and contents.", "anchors": ["src/mbedtls/pem.c: mbedtls_pem_write_buffer", "src/mbedtls/pem.c: mbedtls_pem_read_buffer"]}
{"id": "C49", "title": "Puncturable encryption decrypts exactly the unpunctured tags", "statement": "For a punctured key built from the initial share for d punctures and the d shares of tags t1..td, decrypting a ciphertext for tag t returns true and the message if t is none of t1..td, and false if t is one of them, provided the tag hash does not collide and t is not the reserved tag.", "quantifier": "every master key, list of tags, message, randomness", "why_tests_cant": "Lists of punctures are unbounded; correctness rests on an algebraic cancellation over all shares.", "anchors": ["src/puncturable_enc.cpp: PuncturableEncryption", "src/puncturable_enc.cpp: PuncturableDecryption", "src/ppke/GMPpke.cpp: Gmppke::sk0Gen", "src/ppke/GMPpke.cpp: Gmppke::skShareGen", "src/ppke/GMPpke.cpp: Gmppke::recoverBlind"]}
{"id": "C50", "title": "Puncturing order and share order do not matter for decryption", "statement": "Decryption with the shares of a punctured key listed in any order returns the same result; the in-place public-key puncture operation and the incremental share generation both yield keys that decrypt the same ciphertexts.", "quantifier": "every permutation of every share list", "why_tests_cant": "Factorially many orders.", "anchors": ["src/ppke/GMPpke.cpp: Gmppke::recoverBlind", "src/ppke/GMPpke.cpp: Gmppke::puncture"]}
{"id": "C51", "title": "The reserved tag is refused and tags are extracted faithfully", "statement": "Encrypting or puncturing on the reserved tag throws invalid_argument; extract_tag of a ciphertext or key share returns the tag it was made for, also after byte serialization.", "quantifier": "every tag, message, index", "why_tests_cant": "All tags.", "anchors": ["src/include/sse/crypto/puncturable_enc.hpp: extract_tag", "src/puncturable_enc.cpp: PuncturableEncryption::inc_puncture", "src/ppke/GMPpke.cpp: Gmppke::blind", "src/ppke/GMPpke.cpp: Gmppke::skShareGen"]}
{"id": "C52", "title": "Puncturable encryption derives each secret scalar from its own label", "statement": "The PRF inputs used for the master parameters, the initial shares and the incremental shares are pairwise different for different purposes and different puncture indices.", "quantifier": "every pair of purposes and 64-bit indices", "why_tests_cant": "Indices are unbounded; label strings are built by concatenation.", "anchors": ["src/ppke/GMPpke.cpp: Gmppke::paramgen", "src/ppke/GMPpke.cpp: Gmppke::sk0Gen", "src/ppke/GMPpke.cpp: Gmppke::skShareGen"]}
{"id": "C53", "title": "Serialization of symmetric objects round-trips and rejects short inputs", "statement": "Deserializing the serialization of a PRF, PRG, cipher or PRP restores the same key and reads exactly the key length, any shorter input throws invalid_argument, longer inputs leave the remaining bytes unread.", "quantifier": "every key, every input length and content", "why_tests_cant": "All byte strings.", "anchors": ["src/include/sse/crypto/prf.hpp: Prf::deserialize", "src/prg.cpp: Prg::deserialize", "src/cipher.cpp: Cipher::deserialize", "src/prp.cpp: Prp::deserialize"]}
{"id": "C54", "title": "Big-endian import and export of big numbers are inverse", "statement": "Writing a non-negative multi-precision integer into a buffer at least as large as its size and reading it back gives the same integer; reading never depends on leading zeros; writing into a smaller buffer fails.", "quantifier": "every non-negative integer and buffer size", "why_tests_cant": "Unbounded integers.", "anchors": ["src/mbedtls/bignum.c: mbedtls_mpi_read_binary", "src/mbedtls/bignum.c: mbedtls_mpi_write_binary", "src/mbedtls/bignum.c: mbedtls_mpi_size"]}
{"id": "C55", "title": "Limb arithmetic implements integer arithmetic", "statement": "Addition, subtraction, multiplication, shifts and comparison on multi-precision integers return the exact integer results for all operand sizes and signs, also when the result aliases an operand.", "quantifier": "every pair of integers", "why_tests_cant": "Carries propagate over unbounded numbers of limbs.", "anchors": ["src/mbedtls/bignum.c: mbedtls_mpi_add_abs", "src/mbedtls/bignum.c: mbedtls_mpi_sub_abs", "src/mbedtls/bignum.c: mbedtls_mpi_mul_mpi", "src/mbedtls/bignum.c: mbedtls_mpi_shift_l"]}
{"id": "C56", "title": "Modular exponentiation and inversion return the mathematical result", "statement": "mpi_exp_mod(A,E,N) returns A^E mod N for every odd N and non-negative E (sliding windows, Montgomery form), and mpi_inv_mod returns the inverse whenever it exists and fails otherwise.", "quantifier": "every base, exponent, odd modulus", "why_tests_cant": "Window boundaries and carries for unbounded operands.", "anchors": ["src/mbedtls/bignum.c: mbedtls_mpi_exp_mod", "src/mbedtls/bignum.c: mpi_montmul", "src/mbedtls/bignum.c: mbedtls_mpi_inv_mod", "src/mbedtls/bignum.c: mbedtls_mpi_gcd"]}
{"id": "C57", "title": "A constrained RC-PRF built from accepted elements is self-consistent", "statement": "Whenever the element constructors and the constrained-key constructor accept their arguments, range evaluation of the resulting object succeeds on every sub-range of its range and passes, for each leaf, the value single evaluation returns.", "quantifier": "every list of elements accepted by the public constructors, every sub-range", "why_tests_cant": "Tests build elements at a handful of well-chosen positions.", "anchors": ["src/include/sse/crypto/rcprf.hpp: ConstrainedRCPrfElement", "src/include/sse/crypto/rcprf.hpp: ConstrainedRCPrf::ConstrainedRCPrf", "src/include/sse/crypto/rcprf.hpp: ConstrainedRCPrf::eval_range"]}
{"id": "C58", "title": "One-shot PRG derivation consumes the key", "statement": "A static (one-shot) PRG derivation of bytes, of a key or of several keys that returns normally leaves the caller's key object empty, so that the same key cannot be used again by mistake.", "quantifier": "every key, size, offset and count", "why_tests_cant": "All sizes and counts, including zero.", "anchors": ["src/include/sse/crypto/prg.hpp: Prg::derive_keys", "src/prg.cpp: Prg::derive"]}
{"id": "C59", "title": "Several threads can use the library's key objects at the same time", "statement": "Evaluations (which only use const methods) started by several threads give the results of running them one after the other, in every interleaving: threads using different objects do not disturb each other, and threads sharing one object do not fault or get spurious exceptions.", "quantifier": "every interleaving of the key operations of any number of calls", "why_tests_cant": "The unlock/read/lock windows are a few instructions wide; a failing interleaving is rarely hit by a test.", "anchors": ["src/include/sse/crypto/key.hpp: Key::lock", "src/include/sse/crypto/key.hpp: Key::unlock", "src/include/sse/crypto/key.hpp: Key::data", "src/include/sse/crypto/hmac.hpp: HMac::hmac"]}
{"id": "C60", "title": "Refused wrapped objects leave no decrypted secret behind", "statement": "Every call of unwrap, whether it returns or throws, releases (and thereby erases) the protected buffer into which it decrypted the serialization.", "quantifier": "every byte string, target type and wrapping key", "why_tests_cant": "Tests do not look at memory that is still allocated after an exception.", "anchors": ["src/include/sse/crypto/wrapper.hpp: Wrapper::unwrap"]}
{"id": "C61", "title": "No output without a key", "statement": "Every operation of Prg, HMac, Prf, Cipher and Wrapper on a moved-from or erased object (or with a moved-from key argument) throws an exception: it returns no output bytes, does not read freed or null memory, and one-shot derivations do not touch the absent key. Requests for zero bytes, which need no key, are the only exception.", "quantifier": "every operation, every input, every requested length", "why_tests_cant": "Use-after-move is reachable only through misuse; unit tests exercise one or two operations and cannot show the absence of a path that returns predictable bytes for the rest", "anchors": ["src/prg.cpp", "src/include/sse/crypto/prg.hpp", "src/include/sse/crypto/hmac.hpp", "src/include/sse/crypto/prf.hpp", "src/cipher.cpp", "src/include/sse/crypto/wrapper.hpp", "src/include/sse/crypto/key.hpp"]}
{"id": "C62", "title": "The PRP key schedule holds the field multiples of the key", "statement": "For every 48-byte key the context built from it holds I, J and L from the key and the products 2I, 4I, 2J, 4J in GF(2^128) (polynomial x^128+x^7+x^2+x+1); doubling is a permutation of the 128-bit blocks, and the offset used for the g-th group of blocks is 2^(g+3) I.", "quantifier": "every key, every block, every group number", "why_tests_cant": "The carry between lanes and the reduction happen only for particular bit patterns of the key; there are 2^128 blocks.", "anchors": ["src/aez/aez.c: double_block", "src/aez/aez.c: aez_setup", "src/aez/aez.c: pass_one", "src/aez/aez.c: pass_two"]}
{"id": "C63", "title": "Long division returns quotient and remainder", "statement": "mbedtls_mpi_div_mpi returns the quotient rounded towards zero and the remainder with the sign of the dividend, mbedtls_mpi_mod_mpi the residue in [0,B) and mbedtls_mpi_mod_int the residue modulo a positive machine integer, for all operand sizes and signs; division by zero and residues modulo negative numbers are refused.", "quantifier": "every dividend and divisor", "why_tests_cant": "The estimate of a quotient digit is wrong, and corrected, only for rare combinations of limbs (probability about 2^-63 for the last correction).", "anchors": ["src/mbedtls/bignum.c: mbedtls_mpi_div_mpi", "src/mbedtls/bignum.c: mbedtls_mpi_mod_mpi", "src/mbedtls/bignum.c: mbedtls_mpi_mod_int", "src/mbedtls/bignum.c: mbedtls_int_div_int"]}
{"id": "C64", "title": "The primality test accepts only strong probable primes, and how often it errs", "statement": "mbedtls_mpi_is_prime accepts |X| only if it is a prime up to 997, or has no factor below 1009 and is a strong probable prime to every one of the bases drawn, whose number is that of the HAC table for its length; a composite number is accepted only if all bases lie in a set of at most a quarter of the smaller numbers (Rabin); numbers below 1009^2 that are accepted are primes; a prime is accepted whenever the generator gives a usable base within 31 calls; no undefined behaviour and the random source's error codes are passed on.", "quantifier": "every number, every sequence of answers and failures of the random source", "why_tests_cant": "Strong pseudoprimes and the bases that unmask them cannot be enumerated; a test run sees one random sequence, and the bound of a quarter is a theorem about all bases of all composite numbers.", "anchors": ["src/mbedtls/bignum.c: mbedtls_mpi_is_prime", "src/mbedtls/bignum.c: mpi_miller_rabin", "src/mbedtls/bignum.c: mpi_check_small_factors", "src/mbedtls/bignum.c: mbedtls_mpi_fill_random"]}
{"id": "C65", "title": "Prime generation returns the first accepted candidate, and ends", "statement": "mbedtls_mpi_gen_prime refuses sizes below 3 and above 8192 bits without calling the random source; otherwise its result is an odd number of at least nbits bits that the primality test accepts, the first one not rejected in steps of 2 from a first candidate with the highest and lowest bit set; with dh_flag both the result and half of it pass the test and the result is 11 modulo 12; the search ends, with a number of at most nbits+1 bits, for every random source that gives usable bases; it never has undefined behaviour.", "quantifier": "every size, every sequence of answers and failures of the random source, every number of candidates tried", "why_tests_cant": "The number of candidates is unbounded and the random sequences are infinite; overflow past nbits bits happens only for first candidates just below 2^nbits.", "anchors": ["src/mbedtls/bignum.c: mbedtls_mpi_gen_prime", "src/mbedtls/bignum.c: mbedtls_mpi_set_bit"]}
{"id": "C66", "title": "A private-key object answers rightly after every history, on multi-precision integers", "statement": "For a TDP private-key object with a 2048-bit modulus, whether made from a string or generated, and after any sequence of eval, invert, invert_mult and sample, each of these returns what it is to return: eval the 256-byte encoding of m^E mod N, invert the unique x < N with x^E = m (or invalid_argument for m >= N), invert_mult the x < N with x^(E^order) = m mod N, sample a number below N. The Montgomery constants cached in the RSA context, the blinding pair that is squared at every inversion, and the sizes of the limb arrays left by earlier calls have no visible effect, and no operation has undefined behaviour.", "quantifier": "every key accepted by the constructor with prime factors, every sequence of operations of any length, every random source that does not fail and gives a unit within 11 draws", "why_tests_cant": "The state (three caches, two blinding values, limb arrays) evolves with every call; a stale cache or an array that is too short shows up only for particular sequences of calls and sizes.", "anchors": ["src/mbedtls/rsa.c: mbedtls_rsa_private", "src/mbedtls/rsa.c: mbedtls_rsa_public", "src/mbedtls/rsa.c: rsa_prepare_blinding", "src/tdp_impl/tdp_impl_mbedtls.cpp: TdpInverseImpl_mbedTLS::invert", "src/tdp_impl/tdp_impl_mbedtls.cpp: TdpInverseImpl_mbedTLS::invert_mult", "src/tdp_impl/tdp_impl_mbedtls.cpp: TdpImpl_mbedTLS::eval"]}
{"id": "C67", "title": "Key generation makes a working key or reports an error", "statement": "mbedtls_rsa_gen_key on a fresh context refuses sizes below 128 bits, odd sizes and exponents below 3 before drawing anything. Otherwise, when it returns 0, P > Q are odd numbers that the primality test accepted, N = PQ has exactly the requested length, and D, DP, DQ, QP are the values that belong to them; with P and Q prime the TdpInverse constructor succeeds and the object satisfies C66, and if one of them is composite then every base of its test was one of at most a quarter of the numbers. When it fails, the context is empty and the cause is an error of the random source or two accepted numbers with a common factor. It ends with the first pair of primes that fits.", "quantifier": "every size and exponent, every random source, every number of rejected pairs", "why_tests_cant": "Each run is random and takes seconds; rejected pairs, the exchange of P and Q, and reuse of integers with stale limbs occur in a fraction of the runs.", "anchors": ["src/mbedtls/rsa.c: mbedtls_rsa_gen_key", "src/tdp_impl/tdp_impl_mbedtls.cpp: TdpInverseImpl_mbedTLS::TdpInverseImpl_mbedTLS"]}
{"id": "C68", "title": "Pools answer rightly after every history of evaluations and copies", "statement": "A pool built from a public key with a 2048-bit modulus answers eval_pool of order 1..size with the 256-byte encoding of m^(E 65537^(order-1)) mod N and larger orders with invalid_argument, after any sequence of evaluations and copies (with the Montgomery constants that these leave in the keys and copy along); sizes 2 to 127 can be built for the exponent 65537, sizes 128 to 255 are refused by an exception.", "quantifier": "every accepted public key of that size, every pool size, every sequence of evaluations and copies", "why_tests_cant": "There are as many cached constants as keys in a pool, and copies carry them over; a constant that does not fit the copied modulus gives wrong results only after a copy of a key that was used.", "anchors": ["src/tdp_impl/tdp_impl_mbedtls.cpp: TdpMultPoolImpl_mbedTLS::TdpMultPoolImpl_mbedTLS", "src/tdp_impl/tdp_impl_mbedtls.cpp: TdpMultPoolImpl_mbedTLS::eval_pool", "src/tdp_impl/tdp_impl_mbedtls.cpp: TdpMultPoolImpl_mbedTLS::duplicate_pool", "src/mbedtls/rsa.c: mbedtls_rsa_copy"]}
{"id": "C69", "title": "Copies of RSA contexts work like the original", "statement": "A context made by mbedtls_rsa_copy, by the copy constructor or by the assignment operator of TdpImpl_mbedTLS evaluates every message to the same result as the context it was copied from, whatever was evaluated before; objects with a public key made from a string keep answering eval, sample and generate rightly through any sequence of evaluations and copies.", "quantifier": "every context whose members are well formed, every sequence of operations", "why_tests_cant": "The copied cache depends on the number of allocated limbs, which is invisible in the value of the modulus; keys in tests have no leading zero limbs.", "anchors": ["src/mbedtls/rsa.c: mbedtls_rsa_copy", "src/mbedtls/bignum.c: mbedtls_mpi_copy", "src/tdp_impl/tdp_impl_mbedtls.cpp: TdpImpl_mbedTLS::operator=", "src/tdp_impl/tdp_impl_mbedtls.cpp: TdpImpl_mbedTLS::TdpImpl_mbedTLS"]}
{"id": "C70", "title": "The permutation computes AEZ", "statement": "For every 48-byte key, Prp::encrypt and Prp::decrypt (on buffers in place or not, on strings, on 32- and 64-bit integers) return the AEZ encipherment and decipherment of the input: the tweakable cipher E(j,i) over AES rounds with the offsets of the key, the hash of the empty header, the two layers over pairs of blocks with their checksums and the partial blocks for 32 bytes and more, and the Feistel network with its number of rounds and its last bit for 1 to 31 bytes.", "quantifier": "every key, every message of every length up to 2^32-1 bytes, both directions, every AES round function (and the AES round in particular)", "why_tests_cant": "The inverse property cannot see an error made the same way in both directions (a wrong offset, a wrong number of rounds, a dropped checksum); sample vectors cover only a few of the lengths and groupings of blocks.", "anchors": ["src/aez/aez.c: aez_setup", "src/aez/aez.c: aez_hash", "src/aez/aez.c: pass_one", "src/aez/aez.c: pass_two", "src/aez/aez.c: cipher_aez_core", "src/aez/aez.c: cipher_aez_tiny", "src/prp.cpp: Prp::encrypt", "src/prp.cpp: Prp::decrypt"]}
{"id": "C71", "title": "The OpenSSL backend of the TDP agrees with the mbedTLS backend", "statement": "For a 2048-bit key the functions of tdp_impl_openssl.cpp return what those of tdp_impl_mbedtls.cpp return: eval on strings (of every length) and arrays, generate, invert on messages, invert_mult for every order, eval_pool for pools with the exponent 65537 and every size, on the original and on copies; a sampled message is the encoding of a number below the modulus; what one refuses the other refuses; and what is serialized by a TdpInverse is read again by TdpInverse::deserialize.", "quantifier": "every 2048-bit key, every message and every other input, every order and pool size, every state of the random source and the blinding of the mbedTLS backend", "why_tests_cant": "Only one backend is compiled in; the encodings differ in how leading zeros are made, which shows for a fraction of the results; refusals of OpenSSL that the code ignores give uninitialised memory, which may look like a result.", "anchors": ["src/tdp_impl/tdp_impl_openssl.cpp: TdpImpl_OpenSSL::eval", "src/tdp_impl/tdp_impl_openssl.cpp: TdpInverseImpl_OpenSSL::invert", "src/tdp_impl/tdp_impl_openssl.cpp: TdpInverseImpl_OpenSSL::invert_mult", "src/tdp_impl/tdp_impl_openssl.cpp: TdpMultPoolImpl_OpenSSL::eval_pool", "src/tdp_impl/tdp_impl_openssl.cpp: TdpImpl_OpenSSL::generate_array", "src/tdp.cpp: TdpInverse::deserialize"]}
{"id": "C72", "title": "Keys survive export and import on limbs and work afterwards", "statement": "A text given to the constructors of TdpInverse and Tdp (up to 34999 bytes) is refused with runtime_error or gives a context on limbs that satisfies the invariants under which every operation is defined and right; a key that passed the checks and whose private exponent has at most 2048 bits is written by private_key and public_key as the encoding of its numbers, whatever its limbs and caches are at that time; reading that text gives the same key; and every sequence of eval, invert, invert_mult, exports, reloads through the exported text and copies gives the results and texts belonging to the key at the start.", "quantifier": "every text up to 34999 bytes, every key in every state that a history of operations can leave, every sequence of operations, every random source that does not fail", "why_tests_cant": "Leading zero limbs, cached constants and blinding values depend on the history of an object and are invisible in its output except when they are wrong; tests export once, from fresh objects.", "anchors": ["src/mbedtls/pkparse.c: mbedtls_pk_parse_key", "src/mbedtls/rsa_io.c: mbedtls_rsa_parse_key", "src/mbedtls/rsa_io.c: mbedtls_rsa_write_key_pem", "src/mbedtls/rsa_io.c: mbedtls_rsa_write_pubkey_pem", "src/tdp_impl/tdp_impl_mbedtls.cpp: TdpInverseImpl_mbedTLS::private_key", "src/tdp_impl/tdp_impl_mbedtls.cpp: TdpImpl_mbedTLS::public_key", "src/mbedtls/bignum.c: mbedtls_mpi_write_binary"]}
{"id": "C73", "title": "Numbers survive being written and read as text, within the announced buffer", "statement": "For every radix 2..16, mbedtls_mpi_read_string returns exactly the integer the text stands for (optional minus sign, digits of either case), whatever the destination held and whatever follows the final zero, refuses every other text, and never accesses memory outside its arrays, for texts of every length. The only texts of integers that are refused, with an error, are hexadecimal ones of more than 160000 characters and those of integers from the radix times 2^639936 on (10000 limbs are the limit of the library); leading zeros do not count in other radices. Texts that are not that long and stand for no integer give INVALID_CHARACTER. mbedtls_mpi_write_string announces a length in *olen when the buffer is shorter than it, and with a buffer of at least that length writes the sign, the shortest digits (radix 16: whole bytes) and a final zero without passing that length; reading the result gives back the integer and its sign field. Other radices are refused by both. An integer without limbs is written in radix 2 through a null pointer, which violates this.", "quantifier": "every integer (other radices than 16: up to 9998 limbs, longer ones give an allocation error), every radix, every buffer length, every text", "why_tests_cant": "The announced length is exact for some lengths in bits only, so that an off-by-one overflows the buffer for one residue class and one radix; the digits come from repeated in-place division of arrays of arbitrary size.", "anchors": ["src/mbedtls/bignum.c: mbedtls_mpi_read_string", "src/mbedtls/bignum.c: mbedtls_mpi_write_string", "src/mbedtls/bignum.c: mpi_write_hlp", "src/mbedtls/bignum.c: mpi_get_digit"]}
{"id": "C74", "title": "Conditional assignment, exchange, resizing and division by a machine integer", "statement": "mbedtls_mpi_safe_cond_assign keeps the destination for the condition 0 and assigns value and sign for each of the other 255 values; mbedtls_mpi_safe_cond_swap exchanges or keeps both; in both cases the sizes afterwards are the larger of the two sizes, independent of the condition. mbedtls_mpi_shrink keeps the integer and leaves the least size allowed, or grows. mbedtls_mpi_div_int returns the truncated quotient and the remainder with the sign of the dividend for every machine integer but the least, and refuses zero.", "quantifier": "every pair of integers of all sizes and signs, all 256 values of the condition, every size, every divisor", "why_tests_cant": "The selection is arithmetic on limbs without branches; a condition such as 2 or 128, or sizes in the rarer order, is easily left out of tests.", "anchors": ["src/mbedtls/bignum.c: mbedtls_mpi_safe_cond_assign", "src/mbedtls/bignum.c: mbedtls_mpi_safe_cond_swap", "src/mbedtls/bignum.c: mbedtls_mpi_shrink", "src/mbedtls/bignum.c: mbedtls_mpi_swap", "src/mbedtls/bignum.c: mbedtls_mpi_div_int"]}
{"id": "C75", "title": "Elements of a constrained key answer for exactly their own leaves; the empty key for none", "statement": "Every element that the constructors of ConstrainedRCPrfInnerElement and ConstrainedRCPrfLeafElement accept, aligned with the tree or not, refuses each leaf, range and constraint that leaves its interval, before any call back. An element that is a node of the tree returns the values of the tree on its leaves, calls back in order on exactly the leaves of a range, and constrains to nodes that tile the range. A ConstrainedRCPrf built of no elements refuses every leaf, range and constraint.", "quantifier": "every accepted element of every height up to 64 (refusals: every height), every leaf, every pair of bounds", "why_tests_cant": "The elements are public classes used to reassemble keys; inside a constrained key the checks of the elements are never reached, so tests through the key cannot see them.", "anchors": ["src/include/sse/crypto/rcprf.hpp: ConstrainedRCPrfInnerElement", "src/include/sse/crypto/rcprf.hpp: ConstrainedRCPrfLeafElement", "src/include/sse/crypto/rcprf.hpp: ConstrainedRCPrf::min_leaf"]}
{"id": "C76", "title": "Several threads can use one trapdoor permutation", "statement": "The const methods of one object of class TdpInverseImpl_mbedTLS may be called from several threads: whatever the interleaving of their accesses to the mutable members (the Montgomery caches RN, RP, RQ and the blinding values), every call that returns gives the result it gives on an object of its own, calls do not wait for each other, and no two threads access a member at the same time when one of them writes it.", "quantifier": "every number of threads, every list of calls, every interleaving of the accesses, every state of the caches, every order in which the copy of a structure handles its fields", "why_tests_cant": "The windows are a few instructions wide and open once per object (caches) or once per call (blinding); a test that hits them is a matter of luck, and a wrong inverse is returned without an error.", "anchors": ["src/tdp_impl/tdp_impl_mbedtls.cpp: TdpImpl_mbedTLS::eval", "src/tdp_impl/tdp_impl_mbedtls.cpp: TdpInverseImpl_mbedTLS::invert", "src/tdp_impl/tdp_impl_mbedtls.cpp: TdpInverseImpl_mbedTLS::invert_mult", "src/mbedtls/bignum.c: mbedtls_mpi_exp_mod", "src/mbedtls/rsa.c: mbedtls_rsa_private", "src/mbedtls/rsa.c: rsa_prepare_blinding"]}
{"id": "C77", "title": "Threads that share a key get its values and leave it protected", "statement": "Methods of const objects that use one key (unlock, reads of the content through data(), serialize() or the pointer, lock) may be called from several threads: whatever the interleaving of their accesses to the flag, the page protection and the content, no call ends the process, every call that returns has the value it has alone, no call fails, and when all calls have returned the content is inaccessible if memory locking is compiled in.", "quantifier": "every number of threads, every list of such methods, every interleaving of the single accesses, with and without memory locking", "why_tests_cant": "The failing interleavings are a few instructions wide, and the one that leaves the key readable gives no wrong result at all.", "anchors": ["src/include/sse/crypto/key.hpp: Key::lock", "src/include/sse/crypto/key.hpp: Key::unlock", "src/include/sse/crypto/key.hpp: Key::data", "src/include/sse/crypto/key.hpp: Key::serialize", "src/prg.cpp: Prg::derive", "src/cipher.cpp: CipherImpl::encrypt", "src/include/sse/crypto/hmac.hpp: HMac::hmac"]}
{"id": "C78", "title": "Constructors and derivations take keys, return keys, and leave nothing else", "statement": "A function that is given a key by rvalue reference empties it if it succeeds, and afterwards the key lives only in the object that was made; a function that makes keys (derivation, duplication, deserialisation, evaluation of a leaf or of a range of leaves, constraining) returns exactly the keys that live afterwards, with the values of the derivation and locked; keys that exist besides are unchanged; the buffers of all temporary keys, and of refused ones, have been wiped and released when the function returns or throws, also when the callback of a range evaluation throws.", "quantifier": "every state of the keys that a program can reach, every key, every derivation function, every number of derived keys, every height of the tree and every range, every callback and every exception it throws", "why_tests_cant": "Lost or unwiped buffers do not change any result; leak checkers see neither memory from sodium_malloc nor whether it was wiped, and the paths with exceptions and moved-from keys are many.", "anchors": ["src/prp.cpp: Prp::Prp", "src/wrapper.cpp: Wrapper::Wrapper", "src/prg.cpp: Prg::derive", "src/prg.cpp: Prg::duplicate", "src/include/sse/crypto/prg.hpp: Prg::derive_key", "src/include/sse/crypto/prg.hpp: Prg::derive_keys", "src/include/sse/crypto/prf.hpp: Prf::derive_key", "src/include/sse/crypto/hmac.hpp: HMac::HMac", "src/include/sse/crypto/rcprf.hpp: RCPrfBase::derive_leaf", "src/include/sse/crypto/rcprf.hpp: RCPrfBase::derive_leaf_range", "src/include/sse/crypto/rcprf.hpp: RCPrfBase::generate_constrained_subkeys_from_node", "src/include/sse/crypto/rcprf.hpp: RCPrf::RCPrf", "src/tdp_impl/tdp_impl_mbedtls.cpp: TdpImpl_mbedTLS::generate"]}
{"id": "C79", "title": "The PRP is the same function on ARMv8 and on x86-64", "statement": "For every key, string, integer, buffer and direction the PRP compiled with the helpers for ARMv8 gives the same result, exceptions and memory included, as compiled with the helpers for AES-NI; hence what one machine encrypts the other decrypts, and on ARMv8 too the functions are AEZ as published over AES. On ARMv8 double_block doubles in GF(2^128) and the shifts by four bits shift, with the first byte the most significant; is_zero holds of the zero block only. The same holds of aez_setup with keys of any length and of aez_encrypt and aez_decrypt with any nonce and any number of authentication bytes: same context, same memory, same verdict on both, so that what one machine encrypts the other accepts and decrypts.", "quantifier": "every key, every string up to 4 GiB, every buffer, both directions, every pair of functions in place of the two halves of the AES round", "why_tests_cant": "A test runs on one kind of processor and cannot compare with the other; the two branches keep blocks in opposite byte orders, and one shift is applied without the conversion that the others have.", "anchors": ["src/aez/aez.c: double_block (ARM)", "src/aez/aez.c: srl4 (ARM)", "src/aez/aez.c: sll4 (ARM)", "src/aez/aez.c: aes (ARM)", "src/aez/aez.c: aes4 (ARM)", "src/aez/aez.c: is_zero (ARM)", "src/aez/aez.c: cipher_aez_tiny", "src/aez/aez.c: cipher_aez_core", "src/prp.cpp: Prp::encrypt"]}
{"id": "C80", "title": "The inner loop of multiplication adds the product, in assembly and in C", "statement": "mpi_mul_hlp(i, s, d, b) adds b times the number of i words at s to the number at d and changes no other word of memory, if the arrays are apart, d is longer and the sum fits; every access is inside the arrays. The inline assembly for x86-64, the C version with 128-bit integers and the one with 64-bit integers only do the same to every memory, for all arguments, overlapping arrays and faults included, whatever is in the registers that the assembly does not set.", "quantifier": "every number of words, all words, every placement of the arrays in memory, every content of the other registers", "why_tests_cant": "Carries out of the high half occur for very few of 2^256 operands; tests run one of the three versions and cannot run the other two on the same machine; the loops are unrolled 16 and 8 times and a test covers few lengths.", "anchors": ["src/mbedtls/bn_mul.h: MULADDC_INIT", "src/mbedtls/bn_mul.h: MULADDC_CORE", "src/mbedtls/bn_mul.h: MULADDC_STOP", "src/mbedtls/bignum.c: mpi_mul_hlp"]}
{"id": "C81", "title": "Division of two words by a word is the same with and without 128-bit integers", "statement": "mbedtls_int_div_int returns the quotient and the remainder of u1 * 2^64 + u0 by d whenever u1 < d, and all ones otherwise, in the version with 128-bit integers and in the one on half words, where each digit is corrected at most twice. The version on half words shifts a word by 64 bits if the divisor has its highest bit set, which the standard leaves undefined (whatever value the shift gives, the result is right); mbedtls_mpi_div_mpi never passes such a divisor, so that it is the same function with either version.", "quantifier": "all words u1, u0, d; all integers and all choices of destinations of mbedtls_mpi_div_mpi", "why_tests_cant": "The second correction of a digit is needed for about one in 2^31 operands; the version on half words is not compiled on the machines that run the tests; whether a shift by 64 is reached in a use is a statement about all integers.", "anchors": ["src/mbedtls/bignum.c: mbedtls_int_div_int", "src/mbedtls/bignum.c: mbedtls_clz", "src/mbedtls/bignum.c: mbedtls_mpi_div_mpi"]}
{"id": "C82", "title": "How likely the primality test is to err, counted over all outputs of the random source", "statement": "If mbedtls_mpi_is_prime is run with a random source that gives every string of bytes equally often, a composite number that fills its limbs, such as the 1024-bit candidates for the primes of a key, is accepted for at most one of 4^k sequences of random strings, k being the number of rounds for its length (one of 64 for 1024 bits); a composite number of any length whose two highest bits are set for at most one of 2^k; in general for at most (passing/usable)^k of them, where the numbers of strings that give each base are known exactly. A prime that fills its limbs is rejected for at most k of 2^30 sequences.", "quantifier": "every number, every length of the sequences from 32 strings per round on, every position of the test in the stream of random strings", "why_tests_cant": "The shares are of the order of 2^-30 and concern numbers of more than 256^12288 sequences; strong pseudoprimes of 1024 bits cannot be found by sampling.", "anchors": ["src/mbedtls/bignum.c: mbedtls_mpi_is_prime", "src/mbedtls/bignum.c: mpi_miller_rabin", "src/mbedtls/bignum.c: mbedtls_mpi_fill_random"]}
{"id": "C83", "title": "Starting and stopping the library", "statement": "Whatever sequence of init_crypto_lib and cleanup_crypto_lib is called by whatever threads, and whatever fails inside, nothing is released twice and nothing is used after its release. A start that returns leaves a usable library: pairings work in its thread, libsodium is initialised, Prp::is_available tells about the processor (and is false before the first start). A start that throws can be undone by a cleanup. A program that alternates starts and stops leaves nothing behind; in general the number of lost handles and mutex arrays is the number of starts that directly follow a start. While the library is started the lock callbacks give OpenSSL mutual exclusion, for the fixed locks and the dynamic ones.", "quantifier": "every history of calls by any number of threads, every combination of failures, with and without OpenSSL, RELIC with a context for each thread or for all", "why_tests_cant": "The test program calls each function once, from one thread, with no failure and without OpenSSL; leaks at exit and locks that exclude nobody change no result.", "anchors": ["src/utils.cpp: init_crypto_lib", "src/utils.cpp: cleanup_crypto_lib", "src/utils.cpp: init_locks", "src/utils.cpp: kill_locks", "src/utils.cpp: locking_function", "src/utils.cpp: dyn_create_function", "src/utils.cpp: dyn_lock_function", "src/utils.cpp: dyn_destroy_function", "src/ppke/relic_wrapper/relic_api.cpp: relicResourceHandle::relicResourceHandle", "src/ppke/relic_wrapper/relic_api.cpp: error_if_relic_not_init", "src/prp.cpp: Prp::compute_is_available"]}
{"id": "C84", "title": "aez_encrypt and aez_decrypt are AEZ as authenticated encryption, for every nonce and number of authentication bytes, and decryption accepts exactly the encryptions", "statement": "For every AES round function, every 48-byte key, every nonce of up to 16 bytes, every number of authentication bytes up to 16 and every message, in place or from one buffer to another: aez_encrypt writes message length plus authentication bytes many bytes, namely the AEZ encryption (written down independently of the code: a hash of the number of authentication bits and the nonce, the cipher on the message followed by zeros, a tag for the empty message), reads only the message and writes nothing else. aez_decrypt returns 0 and the message for exactly the strings that are encryptions of a message under that key and nonce, and -1 for all others, including strings shorter than the authentication bytes; it writes no further than the message. What was encrypted decrypts to the message. With no authentication bytes and a nonce of 16 zero bytes the two are the permutation used by Prp. aez_setup with a key of any other length gives the context of the 48-byte BLAKE2b hash of the key, whatever the context contained before. (The code violates two parts: encryption reads up to 16 bytes behind messages that together with the authentication bytes have 32 bytes or more, and a ciphertext of exactly the authentication length is accepted whenever its one bits are among those of the tag, so that the string of zeros is a forgery under every key and nonce.)", "quantifier": "all round functions, keys, nonces, numbers of authentication bytes, messages, ciphertexts and buffer layouts", "why_tests_cant": "only decryption of honest ciphertexts and some random changes would be tested; that exactly the encryptions are accepted is a statement about all strings, and the forgery is accepted only because of which bits are compared", "anchors": ["src/aez/aez.c:300-333", "src/aez/aez.c:610-695", "src/aez/aez.c:702-819", "src/aez/aez.c:823-872", "src/aez/aez.h:40-45"]}
{"id": "C85", "title": "The big integers, keys and pools are memory safe, lose no memory and erase what they release, whichever allocations fail", "statement": "Whatever the values are, whichever allocations and random draws fail and wherever a function gives up: a call of a function of bignum.c, rsa.c or rsa_io.c on initialised integers (the same integer may be passed for several arguments) uses no uninitialised or released structure and releases nothing twice; afterwards every integer again holds no block or a live block of its own with as many limbs as it says; const arguments and all other integers are unchanged; no block is lost, except when the generation of a prime gives up; every block released on the way was zero, except the text buffers of PEM. The same holds for every program made of such calls with temporaries, loops and ignored errors. Programs in C++ that create, copy, assign, use and destroy permutations, inverses and pools have no undefined behaviour either, and if no exception is thrown every block has been released at the end; if one is thrown, memory can be lost, also secret numbers.", "quantifier": "all programs, all integers, all control flow, all sets of failing allocations, all aliasing of arguments", "why_tests_cant": "Tests do not make allocations fail, so the error paths of the cleanup labels are never executed; leaks and unerased blocks change no result.", "anchors": ["src/mbedtls/bignum.c", "src/mbedtls/rsa.c", "src/mbedtls/rsa_io.c", "src/mbedtls/pkparse.c", "src/mbedtls/pem.c", "src/tdp_impl/tdp_impl_mbedtls.cpp", "src/tdp.cpp: Tdp::operator="]}
{"id": "C86", "title": "An inversion that returns is right, whatever inversions failed before", "statement": "In every history of calls of TdpInverse::invert on one object, in which any call may run out of memory at any point, every call throws or returns, and every message that is returned is the inverse of the argument.", "quantifier": "every key, random source, history of calls, position of the failing allocation in each call", "why_tests_cant": "Allocations do not fail in tests, and the wrong results appear only in later calls, which report no error.", "anchors": ["src/mbedtls/rsa.c: rsa_prepare_blinding", "src/mbedtls/rsa.c: mbedtls_rsa_private", "src/tdp_impl/tdp_impl_mbedtls.cpp: TdpInverseImpl_mbedTLS::invert"]}
{"id": "C87", "title": "AEZ and Prp show an observer nothing but lengths, and whether a ciphertext was accepted", "statement": "The sequence of branches and of addresses of memory accesses in aez_encrypt is the same for any two calls with the same lengths, whatever keys, nonces, plaintexts and AES rounds are; so is that of aez_decrypt for two calls that are both accepted or both rejected. For Prp::encrypt and Prp::decrypt it depends on the length of the message only.", "quantifier": "all keys, nonces, messages, lengths, alignments, AES round functions", "why_tests_cant": "Tests see results and not addresses; timing measurements are statistical and cover chosen inputs.", "anchors": ["src/aez/aez.c:234-872", "src/prp.cpp"]}
{"id": "C88", "title": "The big integers show an observer neither the condition of a conditional operation nor the private key", "statement": "An observer of branches and addresses sees the same for any two calls of mbedtls_mpi_safe_cond_assign, and for any two calls of mbedtls_mpi_safe_cond_swap, on integers with as many limbs, whatever the conditions, signs and limbs are. The calls of the multiplication that mbedtls_mpi_exp_mod makes in an inversion do not determine the exponent and the private key.", "quantifier": "all integers, conditions, exponents, keys, random numbers", "why_tests_cant": "Tests see results and not addresses.", "anchors": ["src/mbedtls/bignum.c:115-139", "src/mbedtls/bignum.c:232-289", "src/mbedtls/bignum.c:1103-1106", "src/mbedtls/bignum.c:1571-1577", "src/mbedtls/bignum.c:1652-1728", "src/mbedtls/rsa.c:461-505"]}
{"id": "C89", "title": "Values outside the ranges of constrained keys are as random as the generator's output", "statement": "Let k be a uniformly random key. Whoever is given the constrained keys of any list of ranges that constrain accepts, and asks for the values at any distinct leaves outside of these ranges, tells the answers of eval from independent uniformly random strings with at most 2 * (height - 1) * (number of values + 2 * number of ranges) times the advantage with which the attack, turned into a test of two consecutive windows of the generator's output for a uniformly random key, tells these from uniformly random strings. Without constrained keys the factor 2 is not needed.", "quantifier": "all generators, value lengths, heights from 2 to 63, lists of ranges and leaves, tests (attacks that choose ranges and leaves in advance)", "why_tests_cant": "A test runs one attack on one generator; the claim is about averages over all keys and about every attack.", "anchors": ["src/include/sse/crypto/rcprf.hpp:351-397", "src/include/sse/crypto/rcprf.hpp:1148-1175", "src/include/sse/crypto/rcprf.hpp:1653-1770", "src/include/sse/crypto/rcprf.hpp:1930-1977"]}
{"id": "C90", "title": "Encryptions of Cipher hide the message and cannot be made without the key", "statement": "Let the key of a Cipher be uniformly random. An attack that adaptively asks for qe encryptions of one of two messages of the same length and for qd decryptions of strings that encryption did not return tells the encryptions of the first messages, with decryption, from the encryptions of the second messages, with a decryption that accepts nothing, with at most: its advantage (in the two worlds) against the key derivation, plus qe*(qe-1)/2^128 for two equal salts, plus (qe + qd) times the advantage of the attacks derived from it against one key of the authenticated encryption, each of which encrypts at most once and does not decrypt what it was given. So a string that encryption did not return is accepted with at most this probability, and encryptions of the first and of the second messages are not told apart even with decryption.", "quantifier": "all functions that satisfy the contracts of the key derivation and authenticated encryption, contents of uninitialised memory, adaptive attacks with any messages and strings, numbers of queries", "why_tests_cant": "A test makes a few encryptions with a few keys; the claim is about averages over all keys and salts and about every adaptive attack.", "anchors": ["src/cipher.cpp:61-100", "src/cipher.cpp:102-120", "src/cipher.cpp:122-172", "src/cipher.cpp:174-191"]}
{"id": "C91", "title": "Wrapped objects look random and cannot be made without the key", "statement": "Let the key of a Wrapper be uniformly random. An attack that adaptively asks for qw wrapped objects of its choice (of the classes that the library wraps) and for unwrapping, as any class, of qu strings that wrap did not return for the same type byte and public context, tells the answers from uniformly random strings (of the size of the serialization plus 28 bytes) and an unwrap that accepts nothing with at most: its advantage against the two key derivations, plus its advantage against the 12-byte PRF, plus its advantage against the key stream at random nonces, plus qw*(qw-1)/2^129 + qu/2^96 + qw*(qw-1)/2^97. A string that wrap did not return is accepted with at most the advantages against the two PRFs plus qw*(qw-1)/2^129 + qu/2^96; this includes strings that were returned for a class with another header.", "quantifier": "all hash functions with 64-byte output, key streams, contents of uninitialised memory, bounds on the length of messages, adaptive attacks, numbers of queries; all families of classes none of whose headers is the beginning of another (proved for the classes of the library)", "why_tests_cant": "A test wraps a few objects with a few keys and changes a few bytes; the claim is about averages over all keys and random bytes and about every adaptive attack.", "anchors": ["src/wrapper.cpp:28-52", "src/include/sse/crypto/wrapper.hpp:195-246", "src/include/sse/crypto/wrapper.hpp:248-317", "src/include/sse/crypto/wrapper.hpp:329-382"]}
{"id": "C92", "title": "Sampled messages and scalars are uniform up to an exact distance", "statement": "If the generator gives uniform bytes, n calls of sample of a 2048-bit key give messages that no test tells from n independent uniform messages below the modulus with advantage more than n/2^66 (and one sample is at distance exactly r(N-r)/(256^264*N), r = 256^264 mod N). generate at q adaptively chosen seeds, with a PRF of uniform key, is within q/2^66 plus the advantage against the PRF of independent uniform messages. For the puncturable encryption: pseudorandom scalars are within q/2^34 plus the advantage against the PRF of uniform scalars; random scalars (PairingGroup::randomZR) are at distance exactly (2^n-r)(2r-2^n)/(2^n*r) from uniform, n the number of bits of the order r, which should be negligible and is more than 11 % for the curve of the installation scripts.", "quantifier": "all keys in shape with a modulus below 2^2048, all tests with values in [0,1], all numbers of calls, adaptive attacks, hash functions with 64-byte output; all orders", "why_tests_cant": "No number of samples shows a distance of 2^-66, and the distance of 11 % appears only in a statistical test over scalars, which the interface does not show; the claim is an exact statement about averages over all random bytes.", "anchors": ["src/tdp_impl/tdp_impl_mbedtls.cpp:232-274", "src/tdp_impl/tdp_impl_mbedtls.cpp:276-323", "src/ppke/relic_wrapper/relic_api.cpp:702-721", "src/ppke/relic_wrapper/relic_api.h:658-660"]}
{"id": "C93", "title": "Prf is as random as HMAC", "statement": "An attack that asks Prf<n> of a uniformly random key at q adaptively chosen strings tells the answers from independent uniform strings of n bytes with exactly the advantage that an explicit attack has that tells HMAC from independent uniform strings of 64 bytes, with q questions for n <= 64 and q*ceil(n/64) otherwise: the expansion loses nothing. It follows for TDP message generation (C92). This should hold for every n for which Prf<n> ends; the code has it up to 16384 bytes, and beyond one question tells the output from uniform with advantage 255/256. It should also hold for two objects with one key and different n; it does not: the value of Prf<n1> at m||0 is the beginning of the value of Prf<n2> at m (n1 <= 64 < n2).", "quantifier": "all hash functions with 64-byte output, contents of uninitialised memory, output lengths, adaptive attacks and numbers of questions", "why_tests_cant": "A test compares outputs with test vectors; that an expansion adds no weakness is a statement about all attacks and averages over all keys, and the repetition needs outputs of more than 16384 bytes.", "anchors": ["src/include/sse/crypto/prf.hpp:260-305", "src/include/sse/crypto/hmac.hpp:130-279", "src/tdp_impl/tdp_impl_mbedtls.cpp:276-323"]}
{"id": "C94", "title": "Values outside the ranges of constrained keys stay random when each is chosen after seeing the others", "statement": "Let k be a uniformly random key and fix a list of ranges that constrain accepts. An attack fetches, in any order and each depending on all answers so far, at most a constrained keys for ranges in the list and at most b values at leaves outside of all of these ranges. It tells the values of eval from the entries of a uniformly random table that is independent of the constrained keys with at most (height - 1) * (b + 2 * a * max(1, 2 * (height - 2))) times the advantage with which the attacks derived from it tell two consecutive windows of the generator's output for a uniformly random key from uniformly random strings. Without constrained keys: for every adaptive attack with b queries, eval is told from a uniformly random function on the leaves with at most (height - 1) * b times this advantage, for every b, whatever the number of leaves.", "quantifier": "all generators, value lengths, heights from 2 to 63, lists of ranges, adaptive attacks with any numbers of queries", "why_tests_cant": "A test runs one attack on one generator; the claim is about averages over all keys and all function tables and about every adaptive attack.", "anchors": ["src/include/sse/crypto/rcprf.hpp:351-397", "src/include/sse/crypto/rcprf.hpp:1148-1175", "src/include/sse/crypto/rcprf.hpp:1653-1770", "src/include/sse/crypto/rcprf.hpp:1930-1977"]}
{"id": "C95", "title": "Messages under a punctured tag stay secret from whoever holds all key shares", "statement": "Fix a tag t that is not the reserved one and whose hash is not 0 modulo the group order. Let the master key be uniformly random. An attack gets, in any order and each step depending on all answers so far: the shares of inc_puncture for the punctures 1, 2, 3, ... with tags of its choice (t among them or not), the result of initial_keyshare for the punctures so far as soon as t was punctured, encryptions of messages and tags of its choice, and encryptions under t of one of two messages of its choice, before or after the puncture. The probabilities of its guess for the first and for the second messages differ by at most: its advantages against the PRF (on average over its coins) plus (6p + 6) / 2^34 for p punctures, plus, for each of the q challenges and each of the two games, the advantage of an explicitly given solver that tells abs*gT from a uniform multiple of gT, given b*g1, s*g1, a*g2 and b*g2, plus 2q times the distance of the 8-byte mask of a uniform element from uniform. The caller must count punctures: if a number is used for two tags, the initial share and the share for one tag decrypt the messages under the other one, although it was punctured.", "quantifier": "all pairing groups satisfying the stated laws, PRFs, tags with non-zero hash, adaptive attacks with any numbers of punctures, encryptions and challenges, numbers of values of the random scalar", "why_tests_cant": "A test runs one attack with one key; the claim is about averages over all keys and coins and about every adaptive attack.", "anchors": ["src/puncturable_enc.cpp:66-98", "src/puncturable_enc.cpp:111-128", "src/ppke/GMPpke.cpp:113-119", "src/ppke/GMPpke.cpp:239-308", "src/ppke/GMPpke.cpp:365-384", "src/ppke/GMPpke.hpp:355-380"]}
{"id": "C96", "title": "Scalars and group elements of the RELIC wrapper compute modulo the group order", "statement": "A program that computes a ZR from ints, texts, byte strings, random numbers, PRF outputs, hashes and other ZRs with the operators +, -, unary -, *, /, inverse, power, << and >> computes the number modulo the group order that it means; the result is a member (not negative, below the order), two results compare equal exactly when they mean the same number, the 32 bytes of getBytes are that number and are read back as an equal ZR, and RelicDividByZero is thrown exactly when the program divides by zero. A program that computes an element of G1, G2 or GT with +, -, unary -, div and exp from such scalars computes the group element that it means. This holds for programs without negative numbers, without byte strings that reach the order and without hashes equal to the order; for group elements and for remainders it holds for all scalars. It fails otherwise: with a negative int the difference or product can stay negative (then it is no member, compares unequal to the same number, has the bytes of another number or makes getBytes write outside of its buffer), a hash equal to the order is not reduced, operator& can leave leading zero digits (then a scalar of value 0 is accepted as divisor), and ZR(INT_MIN) is undefined.", "quantifier": "all programs (expressions) of any size, all ints, byte strings, texts and random numbers, all orders of 254 bits, all groups whose order divides it", "why_tests_cant": "The tests use random scalars and small non-negative ints; the failures need a negative int combined with a large scalar, a hash that equals the order, or digits that cancel, and correctness is claimed for all programs.", "anchors": ["src/ppke/relic_wrapper/relic_api.cpp:28-260", "src/ppke/relic_wrapper/relic_api.cpp:292-322", "src/ppke/relic_wrapper/relic_api.cpp:404-438", "src/ppke/relic_wrapper/relic_api.cpp:523-570", "src/ppke/relic_wrapper/relic_api.cpp:766-950", "src/ppke/relic_wrapper/relic_api.h:108-315"]}
{"id": "C97", "title": "The RELIC wrapper prints scalars and group elements and separates its hash functions", "statement": "Printing a ZR writes its decimal text, which the constructor from text reads back as the same number; printing an element of G1, G2 or GT writes its encoding in hexadecimal and reads nothing else; strings hashed to a scalar, to G1 and to G2 are never the same. Reading back holds for all numbers, and scalars are separated from both groups. The rest fails: a zero byte follows the text; printing a group element uses each byte of the encoding as an index into the encoding, so that it reads outside of it exactly when a byte is not below its length (points of G1 and G2 with a byte 0xff for example), and different elements of GT are printed alike; hashToG2 uses the prefix of hashToG1, so that both hash the same strings.", "quantifier": "all numbers, all encodings, all messages", "why_tests_cant": "The tests do not print scalars or points and do not look at what is hashed.", "anchors": ["src/ppke/relic_wrapper/relic_api.cpp:57-66", "src/ppke/relic_wrapper/relic_api.cpp:162-182", "src/ppke/relic_wrapper/relic_api.cpp:201-211", "src/ppke/relic_wrapper/relic_api.cpp:324-338", "src/ppke/relic_wrapper/relic_api.cpp:373-389", "src/ppke/relic_wrapper/relic_api.cpp:440-455", "src/ppke/relic_wrapper/relic_api.cpp:492-508", "src/ppke/relic_wrapper/relic_api.cpp:635-651"]}
{"id": "C98", "title": "Set hashes are as hard to collide as discrete logarithms are to compute", "statement": "An algorithm asks for hashes of strings of its choice, the hash function being a uniformly random table, and ends with two programs over set hashes (any constructors, add_element, remove_element, add_set, remove_set, copies, assignments) and one object of each. If the two objects compare equal with probability p although some string does not occur equally often in the two multisets, counted modulo the order l of the group, and imported byte arrays occur equally often, then an explicitly given algorithm computes discrete logarithms in the group with probability at least (1 - 1/l) p - q (1 - 2^256 / (l K))^n, where q is the number of hashes, K bounds the number of preimages of a point under the map to the curve and n is the number of attempts that it makes per hash. Two programs that are fixed in advance collide with probability at most K / 2^256. Two vectors of fewer than l strings count as different exactly when they are not permutations of each other. Conversely the logarithms of the points of two strings give a collision. Multiplicities are counted modulo l only: l copies of any string, which a program of 507 calls reaches by adding the object to itself, compare equal to the empty set, whatever the hash function.", "quantifier": "all curves satisfying the stated laws, adaptive algorithms with any number of hashes, programs of any length, finite sets of strings, numbers of attempts", "why_tests_cant": "A test cannot show the absence of collisions; the claim is about averages over all hash functions and every algorithm that looks for collisions.", "anchors": ["src/set_hash.cpp:44-68", "src/set_hash.cpp:90-144", "src/include/sse/crypto/set_hash.hpp:58-92"]}
{"id": "C99", "title": "ASN.1 booleans, strings, bit strings, sequences and algorithm identifiers survive writing and parsing", "statement": "What mbedtls_asn1_write_bool, write_printable_string, write_ia5_string, write_octet_string, write_bitstring and write_algorithm_identifier put before the cursor is read back by the parsing functions: same value, bytes, number of unused bits, object identifier and parameters, cursor right behind it; the writers fail instead of leaving the buffer, and only if space is short. mbedtls_asn1_get_tag accepts exactly a tag followed by a length field of one to five bytes in BER for a length that fits the buffer. mbedtls_asn1_get_sequence_of accepts exactly the sequences that fill the buffer and are empty or consist of elements with the given tag, and delivers their contents in order; it reads nothing outside of the buffer, and every node that it allocates is in the list of the caller, also after an error. The rest of the property fails: an empty sequence is accepted without touching the node of the caller, which then looks like one element; a bit string without bytes may announce unused bits; booleans other than 0 and 255 and parameters with tag 0 are accepted.", "quantifier": "all contents below 2^32 bytes, space in the buffer, byte strings to parse, outcomes of allocations", "why_tests_cant": "The space of byte strings and cursor positions is unbounded; tests of parsers sample it.", "anchors": ["src/mbedtls/asn1write.c:196-337", "src/mbedtls/asn1parse.c:54-144", "src/mbedtls/asn1parse.c:189-351"]}
{"id": "C100", "title": "Lists of named data are finite maps", "statement": "After mbedtls_asn1_store_named_data returned an entry, mbedtls_asn1_find_named_data finds the stored value under that object identifier and the same as before under all others; if an allocation fails the list is as before and nothing is lost; no identifier occurs twice in a list made by such calls, and mbedtls_asn1_free_named_data_list releases as many blocks as were allocated. The first part fails if a longer value was stored before: the length is kept, and the value that is found is the new one followed by the tail of the old one (proved in general).", "quantifier": "all lists made by any sequence of calls, identifiers, values including null pointers, outcomes of allocations", "why_tests_cant": "Histories of calls with failing allocations are unbounded in number.", "anchors": ["src/mbedtls/asn1write.c:339-396", "src/mbedtls/asn1parse.c:353-392"]}
{"id": "C101", "title": "Output of Prg, and keys derived with it, are as random as the ChaCha20 block function", "statement": "A client calls derive, derive_key and derive_keys of a Prg with a uniform key, with offsets, lengths, key sizes and indices that may depend on all answers before. It tells the answers from those of a uniform stream exactly as well as an explicitly given attack tells the block function with a uniform key from a table of uniform blocks; this attack asks for the blocks that the calls show, at most w for each call if no call shows more. Keys of one size derived with distinct indices are, in the same exact sense, independent uniform keys. The advantage against one pair of children in a range-constrained PRF, in which C89 and C94 are stated, equals that of a test of the first blocks (one block for inner nodes), so that the values of a range-constrained PRF outside of the ranges of the constrained keys that an attack holds are as random as the block function. Keys of different sizes derived with one object are not independent: derive_key<32>(1) is derive_key<16>(2) followed by derive_key<16>(3), and also derive(32, 32).", "quantifier": "all block functions, adaptive clients with any number of calls, offsets below 2^64, outputs up to 2^63 bytes, key sizes, indices, heights up to 63, ranges", "why_tests_cant": "The claim is about averages over all 2^256 keys and every client; a statistical test looks at a few outputs of a few keys.", "anchors": ["src/prg.cpp:44-138", "src/include/sse/crypto/prg.hpp:400-477", "src/include/sse/crypto/rcprf.hpp:349-480"]}
{"id": "C102", "title": "With a random hash function, HMAC and Prf are random functions and tags cannot be forged", "statement": "Let the hash function be a uniform table of 64-byte values of the strings of at most N bytes, and the key be uniform. Whatever an attack asks adaptively - qh hash values and qm values of HMac<Hash,32>::hmac at messages of its choice - the probability of any guess differs from the one with independent uniform values by at most 2 qh / 256^32 + qm (qm - 1) / 2 / 256^64; the same holds for Prf<nb> with nb <= 16384, with qm times the number of blocks in place of qm. Whoever sees tags of t <= 64 bytes of qm messages and qh hash values finds the tag of another message with probability at most 1/256^t + 2 qh / 256^32 + qm (qm + 1) / 2 / 256^64, and 1/256^t cannot be improved. All of this holds whatever uninitialised memory contains.", "quantifier": "for all adaptive attacks and forgers, all numbers of questions, all lengths of messages and tags, all contents of uninitialised memory", "why_tests_cant": "the probabilities are below 2^-200, the attacks are arbitrary functions and the hash function is a random object", "anchors": ["src/include/sse/crypto/hmac.hpp: HMac::hmac", "src/include/sse/crypto/prf.hpp: Prf::prf", "src/hash.cpp: Hash::hash"]}
{"id": "C103", "title": "Keys survive failing allocations and refused memory protection", "statement": "Histories of key operations in which any sodium_malloc may fail and any sodium_mprotect call may be refused, or the system cannot protect pages at all (ENOSYS). Every operation either works or throws (std::bad_alloc without memory, std::runtime_error when protection is refused), nothing is undefined, and an operation that throws leaves the value and the flag of every key as they were; the buffer given to Key(uint8_t*) is wiped unless there was no memory. Where pages can be protected, a key's memory is inaccessible exactly when it says that it is locked. Every buffer is wiped and released once when the objects are gone. The last part fails if a constructor cannot protect its new buffer: it throws, the caller's buffer is already wiped, and the key stays for ever in memory that can be read and written and belongs to nobody. Where pages cannot be protected, keys say that they are locked although their memory can be read.", "quantifier": "all histories of operations of any length, all patterns of failures, all key lengths", "why_tests_cant": "The tests never make malloc or mprotect fail; patterns of failures over histories are unbounded in number.", "anchors": ["src/include/sse/crypto/key.hpp:107-126", "src/include/sse/crypto/key.hpp:141-165", "src/include/sse/crypto/key.hpp:255-275", "src/include/sse/crypto/key.hpp:284-321", "src/include/sse/crypto/key.hpp:374-382"]}
{"id": "C104", "title": "Tokens not yet released are as hard to find as inverting the trapdoor permutation", "statement": "A client keeps n chains of tokens: the seed of a chain is a message from sample, and invert_mult with the private key gives its token at a level. A player sees tokens of its choice, adaptively, and names a token of some chain at a level below T that is above all that it saw of this chain. From the player, n T algorithms are written down that use only the public key (eval); the probability that the player wins is at most the sum of the probabilities with which they invert a uniform message, plus n/2^66 for the bias of sample. An algorithm that inverts a uniform message with some probability can be used to invert every message prime to N with this probability up to (P+Q-1)/N, and the remaining messages but zero give a prime factor of N. The inverses themselves are not independent: the token after the product of two messages is the product of the tokens after them.", "quantifier": "all RSA keys of the model (2048 bits, two primes), all numbers and lengths of chains, all adaptive players and inverting algorithms, all contents of the other random calls", "why_tests_cant": "The claim is about averages over all seeds and every attack; a test sees that eval undoes invert, but not that nothing else does.", "anchors": ["src/tdp_impl/tdp_impl_mbedtls.cpp: TdpInverseImpl_mbedTLS::invert_mult", "src/tdp_impl/tdp_impl_mbedtls.cpp: TdpImpl_mbedTLS::eval", "src/tdp_impl/tdp_impl_mbedtls.cpp: TdpImpl_mbedTLS::sample"]}
{"id": "C105", "title": "What blinding hides of the messages that are inverted", "statement": "mbedtls_rsa_private multiplies the message with a blinding value before it works with the private exponents. Looking at the numbers that the exponentiations of successive calls on one object work on: they are the messages times a, a^2, a^4, ... modulo N, where a is the inverse of the evaluation of the first random number, and the calls depend on the messages only through them. If the first random number was uniform among the invertible ones, one operand would be independent of the message, and two sequences of messages prime to N would give the same distribution if they differ by c, c^2, c^4, ... The independence that blinding is for fails in three ways: sequences that differ in another way never give the same operands (two operands satisfy a public relation with their messages), from the second call on the operand has the Jacobi symbol of the message, and the code draws one byte less than the modulus has, so that the operand of a random message is possible for a given one only with probability 256^255/((P-1)(Q-1)).", "quantifier": "all RSA keys of the model, all sequences of messages, all random sources whose first number is invertible", "why_tests_cant": "Operands are internal and the results are right whatever they are; the claim is about their distribution.", "anchors": ["src/mbedtls/rsa.c:322-354", "src/mbedtls/rsa.c:430-438"]}
{"id": "C106", "title": "Tokens of a client that stores only keys are as hard to find as inverting the permutation", "statement": "The seed of a chain of tokens is generate(prf, name) with a Prf of uniform key, and its tokens are its inverses (invert_mult). Let the hash function be a uniform table. A player that computes qh hash values, sees tokens of n chains of its choice, adaptively, and names a token below level T above all that it saw of a chain wins at most with the sum of the probabilities with which n T algorithms, written down from the player and using eval only, invert a uniform message, plus 2 qh/256^32 + 5n(5n-1)/2/256^64 + n/2^66. For any hash function the same holds with the advantage of an attack on the Prf in the place of the first two terms. The names must differ: of two chains of one name, a token of one gives that of the other.", "quantifier": "all RSA keys of the model, all adaptive players with any numbers of questions, all names, all contents of uninitialised memory", "why_tests_cant": "The claim is about averages over all keys and tables and every attack.", "anchors": ["src/tdp_impl/tdp_impl_mbedtls.cpp:276-323", "src/tdp_impl/tdp_impl_mbedtls.cpp: TdpInverseImpl_mbedTLS::invert_mult", "src/include/sse/crypto/prf.hpp: Prf::prf", "src/include/sse/crypto/hmac.hpp: HMac::hmac"]}
{"id": "C107", "title": "What base64 shows of a key to an observer of addresses", "statement": "An observer sees the conditional branches and the addresses of all accesses to memory, but no data. Encoding non-empty byte strings into sufficient buffers gives the same events exactly if the byte strings are the same: the observer learns all of the data. The call that asks for the size shows nothing of the data. Decoding an accepted text, also only for its size, shows the text; of a refused text only the part before the refused character. Consequently two valid private keys whose PEM files are written by private_key() with the same events are the same key, and the decoding step of the import shows the text of the key.", "quantifier": "all byte strings below 2^63 bytes, all texts, all buffer sizes, all keys that pass mbedtls_rsa_check_privkey", "why_tests_cant": "Tests see results; the claim is about the branches and addresses of all executions, and that they determine the data.", "anchors": ["src/mbedtls/base64.c: mbedtls_base64_encode", "src/mbedtls/base64.c: mbedtls_base64_decode", "src/mbedtls/pem.c: mbedtls_pem_write_buffer", "src/mbedtls/pem.c: mbedtls_pem_read_buffer"]}
{"id": "C108", "title": "What HMAC, Prf, Prg, RCPrf and Cipher show to an observer of addresses", "statement": "An observer sees the conditional branches and the addresses of all accesses to memory, but no data. HMAC shows exactly the length of the message; Prf shows the same for all keys and all messages of the same length, for every output length; Prg shows the same for all keys; encryption shows the same for all keys, nonces and messages of the same length; decryption shows in addition exactly whether the text was accepted. The evaluation of the range-constrained PRF at a leaf shows nothing of the key and of the value, but it shows the leaf, exactly: two evaluations of a tree look the same if and only if the leaves are the same, or, when the values are multiples of 64 bytes long, differ at most in the last bit.", "quantifier": "all keys, messages, nonces, offsets, output lengths, contents of uninitialised memory, hash functions with 64 bytes of output, block functions, tree heights up to 65, leaves", "why_tests_cant": "Tests see results; the claim compares the branches and addresses of all pairs of executions.", "anchors": ["src/include/sse/crypto/hmac.hpp: HMac::hmac", "src/include/sse/crypto/prf.hpp: Prf::prf", "src/prg.cpp: prg_derivation", "src/include/sse/crypto/rcprf.hpp: RCPrfBase::derive_leaf", "src/cipher.cpp: Cipher::encrypt", "src/cipher.cpp: Cipher::decrypt"]}
{"id": "C109", "title": "What the library's functions leave in memory they give up", "statement": "When a function returns, the contents of its local arrays, vectors and heap blocks stay in memory that the program no longer owns. HMac::hmac, Prf::prf, Prf::derive_key, all derivations of Prg into buffers, strings and keys, Prg::duplicate, Cipher's encryption, Cipher's decryption into a buffer (also a refused one), and eval, sample and invert of the trapdoor permutation give back only erased memory when they return, and only erased or never written memory when they throw (for Prf with more than 64 bytes of output and for the encryption of strings: if the object has a key). The others leave exactly: Cipher::decrypt of a string the plaintext, Prp::encrypt and decrypt of strings the result, Hash the whole digest, random_string the string, invert_mult of a string its input, generate the output of the PRF from which the token follows, pseudoRandomZR the output of the PRF from which the secret scalar follows, encrypt and decrypt of puncturable encryption the mask from which the plaintext follows, constraining to a leaf the value of the leaf, and Prf with more than 64 bytes of output, called without a key, the message.", "quantifier": "all keys (also missing ones), messages, lengths, offsets, numbers of keys, contents of uninitialised memory, hash functions, block functions, RSA keys, groups", "why_tests_cant": "Released memory cannot be read by a test without undefined behaviour, and a missing erasure changes no result.", "anchors": ["src/include/sse/crypto/hmac.hpp: HMac::hmac", "src/include/sse/crypto/prf.hpp: Prf::prf", "src/prg.cpp: prg_derivation", "src/prg.cpp: Prg::derive", "src/include/sse/crypto/prg.hpp: Prg::derive_keys", "src/cipher.cpp: Cipher::decrypt", "src/prp.cpp: Prp::decrypt", "src/tdp_impl/tdp_impl_mbedtls.cpp: TdpImpl_mbedTLS::generate_array", "src/ppke/GMPpke.hpp: Gmppke::encrypt", "src/ppke/relic_wrapper/relic_api.cpp: PairingGroup::pseudoRandomZR", "src/include/sse/crypto/rcprf.hpp: RCPrfBase::generate_leaf_from_parent", "src/include/sse/crypto/random.hpp: random_string", "src/hash.cpp: Hash::hash"]}
{"id": "C110", "title": "Prp on short strings cannot be told from random permutations, if the functions it asks cannot be told from random functions", "statement": "Consider anybody who asks a Prp with a uniform key for at most q encryptions and decryptions of strings of m to 32 bytes, each chosen after the answers to those before, and then guesses whether the answers come from the Prp or from uniform permutations of the strings of each length, chosen independently. The probabilities of guessing `Prp` in the two cases differ by at most q(q-1)/16^m + q(q-1)/(2*256^m) plus the difference that an explicit attack, which asks at most 25 q times, achieves between the keyed functions E(0,1), E(0,2), E(0,3), E(0,6), E(0,7), E(-1,1), E(-1,2) of AEZ and independent uniform functions on 128 bits. The same holds, with m = 4 and m = 8, for the permutations of 32-bit and 64-bit numbers.", "quantifier": "all attacks of any adaptivity and number of questions, all m from 1 to 32, all functions in place of the AES round, all contents of uninitialised memory", "why_tests_cant": "The statement is about all attacks and an average over 2^384 keys; a reuse of a point by two rounds or two lengths changes no tested value.", "anchors": ["src/prp.cpp: Prp::encrypt", "src/prp.cpp: Prp::decrypt", "src/prp.cpp: Prp::encrypt_64", "src/prp.cpp: Prp::decrypt_64", "src/aez/aez.c: cipher_aez_tiny", "src/aez/aez.c: cipher_aez_core", "src/aez/aez.c: aez_setup", "src/aez/aez.c: aez_hash"]}
{"id": "C111", "title": "Prp on long strings cannot be told from random permutations, if the functions it asks cannot be told from random functions", "statement": "Consider anybody who asks a Prp with a uniform key for at most q encryptions and decryptions of strings of 32 to 32 l + 63 bytes (of any mix of lengths), each chosen after the answers to those before, and then guesses whether the answers come from the Prp or from uniform permutations of the strings of each length, chosen independently. The probabilities of guessing `Prp` in the two cases differ by at most (q l (2 q l - 1) + l q^2 + 2 q (q - 1)) / 2^128 + q (q - 1) / (2 * 256^32) plus the difference that an explicit attack, which asks at most q (5 l + 10) times, achieves between the keyed functions E(0,0), E(0,1), E(0,2), E(0,4), E(0,5), E(-1,1), E(-1,2), E(-1,4), E(-1,5), E(1,i), E(2,i) of AEZ and independent uniform functions on 128 bits.", "quantifier": "all attacks of any adaptivity and number of questions, all l with strings of less than 2^32 bytes, all functions in place of the AES round, all contents of uninitialised memory", "why_tests_cant": "The statement is about all attacks and an average over 2^384 keys; a block that does not enter the sum, or a function used at two places, changes no tested property of single strings.", "anchors": ["src/prp.cpp: Prp::encrypt", "src/prp.cpp: Prp::decrypt", "src/aez/aez.c: cipher_aez_core", "src/aez/aez.c: pass_one", "src/aez/aez.c: pass_two", "src/aez/aez.c: aez_setup", "src/aez/aez.c: aez_hash"]}
{"id": "C112", "title": "Prp on strings of all lengths cannot be told from random permutations, if the functions it asks cannot be told from random functions", "statement": "Consider anybody who asks one Prp with a uniform key for at most q encryptions and decryptions of strings of m to 32 l + 63 bytes, short and long ones mixed at will, each chosen after the answers to those before, and then guesses whether the answers come from the Prp or from uniform permutations of the strings of each length, chosen independently. The probabilities of guessing `Prp` in the two cases differ by at most q (q - 1) / 16^m + q (q - 1) / (2 * 256^m) + (q l (2 q l - 1) + l q^2 + 2 q (q - 1)) / 2^128 + q (q - 1) / (2 * 256^32) plus the difference that an explicit attack, which asks at most q (5 l + 25) times, achieves between all the keyed functions of AEZ together and independent uniform functions on 128 bits. In particular the answers for short strings tell nothing about those for long strings, although both come from the same key.", "quantifier": "all attacks of any adaptivity and number of questions, all m from 1 to 32, all l with strings of less than 2^32 bytes, all functions in place of the AES round, all contents of uninitialised memory", "why_tests_cant": "The statement is about all attacks and an average over 2^384 keys; a function that short and long strings share is seen by no test of strings of one length.", "anchors": ["src/prp.cpp: Prp::encrypt", "src/prp.cpp: Prp::decrypt", "src/aez/aez.c: cipher_aez_core", "src/aez/aez.c: cipher_aez_tiny", "src/aez/aez.c: pass_one", "src/aez/aez.c: pass_two", "src/aez/aez.c: aez_setup", "src/aez/aez.c: aez_hash"]}
{"id": "C113", "title": "The permutation of long strings treats no two parts of a string alike, so that Prp on long strings cannot be told from random permutations", "statement": "Whoever asks a Prp with a uniform key for encryptions and decryptions of strings, of any lengths, cannot tell it from uniform permutations of the strings of each length, if the AES round functions that it uses cannot be told from random functions; in particular no two 32-byte parts of a string are treated alike. (The code violates this from 32064 bytes on: exchanging the 32 bytes from 1248 with those from 32000 exchanges the same parts of the encryption, and of the decryption, for every key, because both parts get the same offset.)", "quantifier": "all keys, all strings, all attacks, all functions in place of the AES round", "why_tests_cant": "A test would have to encrypt two strings of more than 32064 bytes that differ by the exchange of just these two parts among the half a million pairs; the library's test vectors are far shorter.", "anchors": ["src/aez/aez.c: pass_one", "src/aez/aez.c: pass_two", "src/aez/aez.c: double_block", "src/prp.cpp: Prp::encrypt", "src/prp.cpp: Prp::decrypt"]}
{"id": "C114", "title": "What a Prp answers for integers tells nothing about what it answers for strings, and the whole object cannot be told from random permutations", "statement": "Whoever may call all functions of one Prp with a uniform key, on strings and on integers of 32 and 64 bits, in both directions and in any order, cannot tell the object from independent uniform permutations of the strings of each length, of the 32-bit integers and of the 64-bit integers, if the AES functions that it uses cannot be told from random ones. (The code violates this: an integer is encrypted as the string of its four or eight bytes, so that two calls tell the difference. What holds is the statement with permutations that serve both the integers and the strings of their size.)", "quantifier": "all keys, all attacks, all functions in place of the AES round", "why_tests_cant": "A test fixes some keys and calls; it cannot quantify over every attack that mixes the functions, nor average over all keys.", "anchors": ["src/prp.cpp: Prp::encrypt", "src/prp.cpp: Prp::decrypt", "src/prp.cpp: Prp::encrypt_64", "src/prp.cpp: Prp::decrypt_64"]}
{"id": "C115", "title": "An attack on many objects gains at most the sum of what attacks on single objects gain, also if their keys are derived from one key", "statement": "Whoever may call any number of Prp, Prg or Prf objects with independent uniform keys, in any order, each call chosen after all answers before, tells them from as many independent ideal objects (random permutations, streams, values) at most as well as the sum, over the objects, of what attacks on that object alone gain with the calls that were made of it. For Prf objects (up to 16384 bytes of output) whose keys are derived with derive_key from one Prg, the same holds with one more term for the block function of Prg.", "quantifier": "all numbers of objects, all attacks, all functions in place of AES, HMAC's hash and the ChaCha20 block function", "why_tests_cant": "A test runs some objects with some keys; it cannot compare averages over all keys of all objects, nor quantify over attacks that combine their answers.", "anchors": ["src/prp.cpp: Prp::encrypt", "src/prp.cpp: Prp::decrypt", "src/include/sse/crypto/prf.hpp: Prf::prf", "src/include/sse/crypto/prg.hpp: Prg::derive_key", "src/prg.cpp: Prg::derive"]}
{"id": "C116", "title": "The permutation with which a Prp encrypts the strings of a length is odd as often as a random permutation is", "statement": "A uniform permutation of the strings of n bytes is even for half of the keys and odd for the others. A Feistel network is always even; the code flips the first bit of strings of less than 16 bytes, where a keyed function of the other bits says so, to make up for it. For these lengths the parity of the permutation is that of the number of points where this function flips the bit, and it is even and odd equally often if the keyed functions are random. For strings of 16 bytes or more the code flips nothing: there the permutation is even for every key (the property fails).", "quantifier": "all keys, all lengths from 1 to 4294967295 bytes, all functions in place of the AES round", "why_tests_cant": "The parity of a permutation depends on its values at all points (256^16 and more for the lengths where the property fails); no test can compute it.", "anchors": ["src/aez/aez.c:702-819 cipher_aez_tiny", "src/aez/aez.c:610-698 cipher_aez_core", "src/aez/aez.c:774-779 flip before decryption", "src/aez/aez.c:810-814 flip after encryption", "src/prp.cpp:79-104 Prp::PrpImpl::encrypt"]}
{"id": "C117", "title": "Many Cipher objects with independent keys are as safe as one, up to the number of objects", "statement": "Let n Cipher objects have independent uniformly random keys. An attack that adaptively asks every object for encryptions of one of two messages of the same length and for decryptions of strings that this object did not return itself (strings that other objects returned are allowed) tells the real objects from ideal ones, which encrypt the second messages and accept nothing, with at most the sum over the objects of the bound of C90 for the attack on this object alone, where the attack answers for the other objects itself. So no object accepts a string that it did not return with more than this probability; in particular what one object encrypts is refused by another one.", "quantifier": "all numbers of objects, all functions that satisfy the contracts of the key derivation and authenticated encryption, contents of uninitialised memory, adaptive attacks with any messages and strings in any order on any objects", "why_tests_cant": "A test uses a few objects with a few keys; the claim is about averages over the keys and salts of all objects and about every adaptive attack that mixes them.", "anchors": ["src/cipher.cpp:61-100", "src/cipher.cpp:102-120", "src/cipher.cpp:122-172", "src/cipher.cpp:174-191"]}
{"id": "C118", "title": "Many Wrapper objects with independent keys are as safe as one, up to the number of objects", "statement": "Let n Wrapper objects have independent uniformly random keys. An attack that adaptively asks every wrapper for wrapped objects of its choice and for unwrapping, as any class, of strings that this wrapper did not return itself for the same header (strings of other wrappers are allowed) tells the wrappers from ideal ones, which return uniformly random strings and accept nothing, with at most the sum over the wrappers of the bound of C91 for the attack on this wrapper alone, where the attack answers for the other wrappers itself. So what one wrapper returns is accepted by another one, as any class, with at most this probability (the remaining number is 2^-96 for one wrapped and one unwrapped object).", "quantifier": "all numbers of wrappers, all classes whose headers are not beginnings of one another (the library's are not), all functions in place of the hash and the stream cipher, contents of uninitialised memory, adaptive attacks with any objects and strings in any order on any wrappers", "why_tests_cant": "A test uses a few wrappers with a few keys; the claim is about averages over the keys and random bytes of all wrappers and about every adaptive attack that mixes them.", "anchors": ["src/wrapper.cpp:28-52", "src/include/sse/crypto/wrapper.hpp:195-246", "src/include/sse/crypto/wrapper.hpp:248-317", "src/include/sse/crypto/wrapper.hpp:329-382"]}
{"id": "C119", "title": "Which texts base64 decoding accepts, and what it returns for each of them", "statement": "A text of less than 2^32 characters is accepted exactly if, without white space, it consists of characters of the alphabet followed by at most two signs =, every carriage return stands before a line feed, and every space before white space or at the end of the text. Whenever decoding succeeds, the result is the number that the text stands for in base 64, written in base 256, without the bits that do not fill a byte; characters of an incomplete last group are dropped. A text is the encoding of what it decodes to exactly if its length without white space is a multiple of four and the dropped bits are zero; other accepted texts (bits that are not zero, missing signs =) give bytes, too. With 2^32 spaces inside a line a text is accepted that should not be.", "quantifier": "every text of less than 2^32 characters, every destination", "why_tests_cant": "The texts that are accepted are infinitely many, and those that should be refused are, too; the violation needs a text of 4 GB.", "anchors": ["src/mbedtls/base64.c: mbedtls_base64_decode"]}
{"id": "C120", "title": "Which byte strings are accepted as RSA keys, and which key each of them is", "statement": "The DER parsers accept a byte string as a private or public key exactly if it begins with the encoding of a key in a given grammar (a PKCS#1 sequence of the version 0 and eight numbers, a PKCS#8 or X.509 sequence with the identifier of RSA around a key) whose numbers pass the checks of the library, and return the key with these numbers; no byte string is a key in two formats. The grammar is larger than DER: bytes behind the outer sequence are ignored, lengths may have the long form, numbers may have any zeros in front and have no sign.", "quantifier": "every byte string and every key", "why_tests_cant": "All byte strings: tests try some malformed keys, and cannot show that there are no other accepted forms.", "anchors": ["src/mbedtls/pkparse.c: pk_parse_key_pkcs1_der", "src/mbedtls/pkparse.c: pk_parse_key_pkcs8_unencrypted_der", "src/mbedtls/pkparse.c: mbedtls_pk_parse_subpubkey", "src/mbedtls/pkparse.c: pk_get_rsapubkey", "src/mbedtls/asn1parse.c: mbedtls_asn1_get_len"]}
{"id": "C121", "title": "Which texts are accepted as armoured keys, and which bytes each of them stands for", "statement": "The PEM reader returns bytes for a text exactly if the part before the first zero is: anything, the header, one of the four line ends (line feed, with an optional space and an optional carriage return before it), a non-empty body that does not begin with the encryption marker, the footer, anything; where no header begins earlier and no footer begins before the end of the body; and the body decodes as base64 to these bytes (C119). Hence a private or public key that is imported is the key (C120) inside such armour or in the bytes of the text itself, and every such text whose key passes the check of public numbers is imported, if it does not contain the header of a format that is tried earlier.", "quantifier": "every text shorter than 2^62 bytes, every header and footer, every key", "why_tests_cant": "All texts: tests try a few malformed texts, and cannot show that no other text is accepted.", "anchors": ["src/mbedtls/pem.c: mbedtls_pem_read_buffer", "src/mbedtls/pkparse.c: mbedtls_pk_parse_key", "src/mbedtls/pkparse.c: mbedtls_pk_parse_public_key", "src/tdp_impl/tdp_impl_mbedtls.cpp: TdpImpl_mbedTLS::TdpImpl_mbedTLS"]}
{"id": "C122", "title": "Every accepted key text has one normal form", "statement": "Whatever text a private key was imported from (PKCS#1 or PKCS#8, armoured or not, with any of the accepted forms of lengths and numbers), private_key() gives a text that depends on the numbers of the key only, or throws; importing that text gives the same key, and two imported keys are equal exactly if their exported texts are. Keys of at most 256 bytes with a private exponent of at most 256 bytes are always exported. For public keys exporting never throws. The public key of an imported private key can be exported and is imported with the same modulus and exponent.", "quantifier": "every text shorter than 2^62 bytes", "why_tests_cant": "All accepted texts: tests import what the library itself has exported.", "anchors": ["src/tdp_impl/tdp_impl_mbedtls.cpp: TdpInverseImpl_mbedTLS::TdpInverseImpl_mbedTLS(const std::string&)", "src/tdp_impl/tdp_impl_mbedtls.cpp: TdpInverseImpl_mbedTLS::private_key", "src/tdp_impl/tdp_impl_mbedtls.cpp: TdpImpl_mbedTLS::public_key", "src/mbedtls/pkparse.c: mbedtls_pk_parse_key", "src/mbedtls/pkwrite.c: mbedtls_pk_write_key_der"]}
{"id": "C123", "title": "Every text that is accepted as a private key gives a permutation", "statement": "If a TdpInverse object is constructed from a text and its modulus has 256 bytes, then eval is a permutation of the messages (256-byte numbers below the modulus).", "quantifier": "every text shorter than 2^62 bytes and every message", "why_tests_cant": "All accepted keys: tests use keys that the library has generated, whose factors are primes.", "anchors": ["src/mbedtls/rsa.c: mbedtls_rsa_check_privkey", "src/tdp_impl/tdp_impl_mbedtls.cpp: TdpInverseImpl_mbedTLS::TdpInverseImpl_mbedTLS(const std::string&)", "src/tdp_impl/tdp_impl_mbedtls.cpp: TdpImpl_mbedTLS::eval"]}
{"id": "C124", "title": "Which buffers TdpInverse::deserialize accepts, and what it reads from sequences of keys", "statement": "TdpInverse::deserialize reads a key and a number of bytes from a buffer exactly if the end marker of PKCS#1 armour occurs in the buffer, not at its start, and the constructor accepts the bytes up to the end of the first occurrence; the bytes read are these, and the line feed behind them if there is one. If the line feed was read, the result does not depend on what follows. Keys that are serialized one behind the other, followed by anything, are read back in the same order, and reading stops exactly where the last one ends.", "quantifier": "every buffer shorter than 2^64 - 30 bytes, every list of keys that were imported and can be exported, all data behind them", "why_tests_cant": "All buffers and all lists of keys: tests deserialize one key.", "anchors": ["src/tdp.cpp: TdpInverse::deserialize", "src/tdp.cpp: TdpInverse::serialize", "src/utils.cpp: strstrn_uint8"]}
