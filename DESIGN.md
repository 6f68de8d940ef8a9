# Formal model of OpenSSE/crypto-tk in Lean 4

## Layout

* `lean/Verif/<Area>/Model*.lean`: computable definitions that follow the C/C++ code; every definition cites file and lines.
* `lean/Verif/<Area>/Lemmas*.lean` and other files: helper lemmas.
* `lean/Verif/<Area>/Spec.lean` (or the head of the property file): small specifications that do not use the model.
* `lean/Verif/<Area>/Props*.lean`: the property theorems (`cNN_…`), with an `example` on a concrete non-trivial case.
* `properties.jsonl`: the properties in English. `MANIFEST.json`: the map from properties to theorems. `seeded/LOG.jsonl`: the mutation tests.

`lake build` in `lean/` builds everything (about 7 minutes on 4 cores).

## Conventions

* Names: a theorem `cNN_…_partial` states a part of a property; `cNN_…_false` is a proved counterexample to (a part of) the property for the
  code as it is.
* Bytes are `UInt8`; buffers are lists or functions with explicit sizes. An access outside a buffer, a failing `assert` (the default build type
  is Debug), a shift by the word width, a null dereference, and a loop that does not end are the outcome `ub`, which is different from every
  other outcome. C++ exceptions are outcomes with a kind. Error codes are outcomes with a code where the code matters.
* `uint64_t` and `size_t` arithmetic is written with `% 2^64` wherever it could wrap.
* External functions are parameters; what is assumed about them is an explicit hypothesis (a structure `…Ok` or a hypothesis of the theorem).
* A `while` loop is a recursion with a step budget; running out of it is `ub` (or `none`), and the theorems show that this does not happen.

## What is modelled

| Area | Code | Level |
|---|---|---|
| `RCPrf` | `rcprf.hpp` | all functions: tree walks with wrap-around, element lists, byte-level serialization; the PRG is a key stream |
| `Wrapper/SpecGame` | no code | adaptive attacks on `Wrapper`, the worlds of C91 |
| `Cipher/SpecGame` | no code | adaptive attacks on `Cipher` and on one key, the games of C90 |
| `Cipher/SpecMany`, `Wrapper/SpecMany` | no code | adaptive attacks on many `Cipher` or `Wrapper` objects, the games of C117 and C118 |
| `Average`, `RCPrf/Hybrid`, `RCPrf/SpecGame` | no code | averages over uniform samples, trees cut at some nodes, the game of C89 |
| `Lazy`, `RCPrf/SpecAdaptive` | no code | tables drawn beforehand against values drawn when asked for; the adaptive game of C94 and the attacks on nodes and pairs of children that an attack is turned into |
| `Tosses`, `Ppke/SpecGame` | no code except in `run` | attacks on a function that toss coins; the game of C95 (key shares after a tag was punctured), played with the functions of `Ppke/Model`; the attacks on the PRF and on the pairing that an attack is turned into, with groups and scalars only |
| `Uniform`, `Oracle`, `Expand` | no code | numbers reduced modulo `N`, attacks on a function (C92), long values from short ones (C93) |
| `Prg` | `prg.cpp`, `prg.hpp` | all overloads; ChaCha20 is a block function |
| `Mac` | `hash.cpp`, `hmac.hpp`, `prf.hpp` | pointers and lengths, 8/16-bit counters, uninitialised memory; the hash is a function with 64-byte results |
| `Key` | `key.hpp` and the lock/unlock discipline of its users | heap of buffers with owners and protection, all histories of operations; threads, access by access (`Key/Threads`); constructors and derivations as programs over keys (`Key/ModelLife`); failing allocations and refused protection (`Key/ModelFail`) |
| `Cipher` | `cipher.cpp`; `serialize`/`deserialize` of Prf, Prg, Cipher, Prp | buffers; the AEAD and the key derivation are parameters |
| `Wrapper` | `wrapper.hpp`, `wrapper.cpp` | bytes, allocation counts; all wrappable classes |
| `Aez` | `aez.c` (both branches), `prp.cpp` | memory accesses byte by byte; the AES round is an arbitrary function; equality with a description of AEZ on integers (`Aez/Spec.lean`), and of the branch for ARMv8 (`Aez/ModelArm.lean`) with the branch for AES-NI; with nonce and authentication bytes (`Aez/ModelAead.lean`, `Aez/ModelArmAead.lean`) and keys of any length (`Aez/ModelSetup.lean`) |
| `Aez/SpecRandom`, `Aez/PropsRandom`, `Hcoef`, `Feistel` | `prp.cpp`, `aez.c` (strings of 1 to 32 bytes) | attacks as decision trees; averages over all keys, tables and permutations |
| `Aez/SpecWide`, `Aez/PropsWide`, `Fresh`, `Wide`, `WideSum`, `WideList` | `prp.cpp`, `aez.c` (strings of 32 bytes and more) | as the row before; AEZ-core with arbitrary functions, and the transcripts of a permutation of that shape |
| `Aez/ModelTrace` | `aez.c` (AES-NI branch), `prp.cpp` | the same functions with an event for every branch and every access to a buffer; results equal to `Aez/ModelAead` |
| `Trace/ModelSym` | `hmac.hpp`, `prf.hpp`, `prg.cpp`, `derive_leaf` of `rcprf.hpp`, `cipher.cpp` | the same functions with an event for every branch and every access to a buffer; results equal to `Mac`, `Prg`, `RCPrf`, `Cipher` |
| `Scrub/Basic`, `Scrub/Model` | `hash.cpp`, `hmac.hpp`, `prf.hpp`, `prg.cpp`, `prg.hpp`, `cipher.cpp`, `prp.cpp`, `random.hpp`, `generate_leaf_from_parent` of `rcprf.hpp`, `tdp_impl_mbedtls.cpp`, `relic_api.cpp`, `GMPpke.hpp` | the functions with temporary buffers as programs over the contents of these buffers; what the buffers hold when they are given up, also by exceptions; results equal to those of the other models |
| `SetHash` | `set_hash.cpp` | programs over several objects; Ed25519 is a group with an encoding |
| `Tdp` | `tdp_impl_mbedtls.cpp`, `tdp.cpp`, `rsa.c` | values of integers, buffers, blinding state, CRT, pools |
| `Tdp/OpenSsl` | `tdp_impl_openssl.cpp` | values of integers, buffers; OpenSSL 1.0 by its documentation; compared with `Tdp` |
| `Bignum` | `bignum.c` | limbs: binary form, shifts, comparisons, addition, subtraction, multiplication, long division, Montgomery exponentiation, gcd, inverse, primality test (with Rabin's theorem), prime generation; texts in the radices 2 to 16, conditional assignment and exchange, shrinking, division by machine integers; refinement to the values that `Tdp` and `Io` use |
| `Rsa` | `rsa.c`, `tdp_impl_mbedtls.cpp`, the parsing and writing of keys in `rsa_io.c`/`pkparse.c` | the same functions as `Tdp` and `Io`, on limbs, with caches, blinding, aliasing and the error paths, and key generation, import and export; refinement to `Tdp` and `Io` |
| `Rsa/ModelThreads` | the accesses of `eval`, `invert`, `invert_mult` to the mutable members of a shared object | any number of threads and interleavings, fields of the caches one by one, blinding values as wholes; sequentially consistent memory |
| `Bignum/ModelKernel` | `bn_mul.h` (x86-64 assembly, both C versions), `mpi_mul_hlp` | instructions, registers and carry; words in memory at addresses; unrolled loops |
| `Bignum/ModelTrace` | `mbedtls_mpi_safe_cond_assign`, `_swap`, `mbedtls_mpi_grow`, the last loop of `mpi_mul_hlp`; the main loops of `mbedtls_mpi_exp_mod` | an event for every branch and every access to limbs; for the exponentiation the calls of `mpi_montmul` and the table entry they use |
| `Bignum/ModelWord` | `mbedtls_int_div_int` without 128-bit integers | half words; the undefined shift as a parameter; `mbedtls_mpi_div_mpi` over any version |
| `Heap` | the same functions of `bignum.c`, `rsa.c`, `rsa_io.c`, `pkparse.c`, `pem.c` and `tdp_impl_mbedtls.cpp` as `Bignum`, `Rsa` and `Io` | structures (uninitialised or with limb count and pointer), blocks with length, contents and liveness, every allocation may fail; values are abstracted: every condition on a value is a free choice, every written word is arbitrary |
| `Io` | `base64.c`, `asn1parse.c`, `asn1write.c`, `pem.c`, `pk.c`, `pkparse.c`, `rsa_io.c` | bytes and pointers; `ModelTrace` with the events that an observer sees |
| `Ppke` | `puncturable_enc.cpp`, `GMPpke.cpp`, `util.hpp`, `relic_api.cpp` | scalars as integers, group elements of abstract groups, serialization |
| `Relic` | `relic_api.{h,cpp}`: scalars, integer functions, operators of the groups, printing, inputs of the hash functions | numbers of RELIC with sign and digits, as far as the wrapper and `bn_cmp` see them; programs as expressions; groups are abstract |
| `Utils` | `utils.cpp` (`strstrn_uint8`) | positions with wrap-around |
| `Lib` | `utils.cpp` (start, stop, lock callbacks), `relicResourceHandle`, `error_if_relic_not_init`, `compute_is_available` | heap objects with pointers, failures as inputs, histories of calls by threads (calls are atomic); RELIC contexts for each thread or for all |

## What is not modelled

* Side channels (except branches and addresses in `Aez/ModelTrace`, `Bignum/ModelTrace`, `Io/ModelTrace` and `Trace/ModelSym`), quality of randomness, computational security (statements about secrecy are symbolic: which key material is derivable, which
  labels are used, which memory is accessible; except C89 to C95, which bound exact averages over uniform keys by the advantage against the generator, the key derivations, the authenticated encryption, the PRF and the key stream, C101, which bounds them by the advantage against the ChaCha20 block function, C102, which takes the hash function as a random table and bounds what is seen of HMAC and `Prf`, C104 and C106, which bound the probability of finding a token of a chain by that of inverting the trapdoor permutation (C106 with seeds from `generate`, for a random hash function or by the advantage against `Prf`), and C98, which takes the hash function as a random table and bounds the probability of collisions by that of computing discrete logarithms).
* Compiler behaviour (for the inline assembly of x86-64 the instructions are modelled, the constraints only as bindings of registers), allocation failures (except in `Heap`, for the big integers and keys, and the leaks listed below),
  `errno`, static initialisation order.
* libsodium, RELIC and OpenSSL internals; test, fuzzing
  and benchmark programs.
* `mbedtls_mpi_self_test` and `mbedtls_base64_self_test` (`bignum.c` 2213-2388, `base64.c` 239-295); reading and writing big integers from files is only declared in `bignum.h`.
* `Tdp` leaves out the Montgomery caches and limb arrays of an RSA context; `Rsa` has them, and shows that on the contexts that the constructors
  build they do not change results (for integers up to 300 limbs; `D` up to 5000).

## Trusted base

* The kernel of Lean 4.33.0.
* The axioms below; no others (no `sorry`, no `native_decide`, no `bv_decide`, no own axioms).
* The transcription from C/C++ to the definitions (each cites its lines), and this document's description of what was left out.
* The effects of the x86-64 instructions of `MULADDC` (`Bignum/ModelKernel.lean`, `step`): `mulq`, `addq`, `adcq`, `movq`, `xorq` on 64-bit words.
* For C89: `E` is the exact average over a finite type, tests are rational-valued functions (a randomised attack is an average of these), ranges and leaves
  are chosen before the key, and nothing is said about running times. The bound is in terms of `PairTest`: the tests of two consecutive windows of the generator's
  output that an attack is turned into by fixing all but the descendants of one hidden node.
* For C94: the ranges are fixed beforehand (with ranges chosen adaptively the loss in the known proofs is no longer polynomial), but when a key is fetched, which one, and which leaves outside are
  asked for may depend on all that was seen. The derived attacks are `toNodes` (constrained keys become their nodes) and `toPairs` (all but the children of the nodes of one level is computed by the attack).
  `hyb` goes down one level at a time: uniform nodes on one level, uniform stopping nodes above.
* For C95: the tag is fixed beforehand (an attack that chooses it later is covered by guessing, which costs a factor); the numbers of punctures are consecutive, as the
  documentation of `inc_puncture` asks, and the initial share is the one for the punctures so far (`c95_reuse_false` shows what else happens). The assumption is the decisional bilinear
  Diffie-Hellman assumption for pairings of different groups with `b` in both groups; `s` has the distribution of the code. An answer `.ub` (a neutral element is encoded, an assertion
  fails) is given to the attack as such. The mask is HMAC under the public tag of the encoding of a group element; how far it is from uniform for a uniform element is a parameter. Timing is not modelled.
* For C90: an attack is a strategy (`Att`) that draws random bytes, asks for encryptions and decryptions and sees every answer, exceptions included; the salts
  are uniform (`random_bytes`), the key is uniform. The key derivation and the AEAD are the parameters of the model of `Cipher` (`Prims`, with contract `Prims.Ok`). A pair
  of messages of unequal lengths is refused by the game, and what encryption returned is not decrypted for the attack. The attacks on one key that the bound
  speaks of are exactly those described by `Derived` (`c90_derived`: they encrypt at most once, decrypt at most qd times, never what they were given).
  Running times are not modelled.
* For C91: attacks as for C90, with objects of any of the classes (`Att`); at most `N` bytes are authenticated per query (`N` arbitrary), so that the random
  function that replaces the PRF is a uniform choice among finitely many. `c91_code` equates the model of constructor, `wrap` and `unwrap` with a world (`sim`)
  in which the PRF and the key stream are oracles. The advantages (`advKdf`, `advTag`, `advStream`) are differences of these worlds.
* For C92: `bn_rand(x, RLC_POS, n)` is taken to give uniform `n`-bit numbers, the generator of mbedTLS uniform bytes; the order of the curve is a number in
  `order254` (RELIC's `BN_P254`, which `-DFP_PRIME=254` selects), and `RELIC_BN_BYTES` is 32 (`-DBN_PRECI=256`).
* For C118: as C117, for `Wrapper`; the attack on one wrapper draws the random strings of ideal wrappers byte by byte with its own coins (`draw`). `made` is the wrapper that the constructor makes of a key.
* For C119: nothing beyond the model of `base64.c`; texts are numbers in base 64 (`number`, `digits`), independent of the groups and passes of the code.
* For C120: the grammar (`Length`, `Element`, `Number`, `Version`, `Algorithm`, `PrivateKey`, `WrappedKey`, `SubjectKey`) is written without the parsers; `checkPub` and `checkPriv` are the models of the checks in `rsa.c`.
* For C121: `Armour` is written without the reader (lists, prefixes and positions only); `decode` is the base64 decoder, which C119 describes exactly; `c121_private` is the sound direction for all three formats, `c121_private_complete` the other one. Encrypted keys are refused (the result `encrypted` of the reader).
* For C122 and C123: `Normal` and `Composite` combine C42, C120 and C121 with C37; nothing new is modelled. `sqKey` is a key of 2048 bits whose first factor is the square of a number of 512 bits. `Permutation` says exactly which imported keys give permutations: those with a square-free modulus and an exponent prime to p - 1 for every prime divisor p.
* For C124: `readAll` is the loop of a client that reads keys one after the other; the fuel of the search is the number that C43 shows to suffice.
* For C117: `Cipher.Many.worlds` is the world of C90 with an object named in every question and a list of returned strings for every object; `only i` is the attack on object `i` that encrypts and decrypts for the others, with salts from its own coins. `cross` is the attack that gives what one object encrypts to another.
* For C116: `Parity.network_even` (no code) says that Feistel networks with halves of at least two bits are even; `Encrypts F n π` says that the answers `F` are those of the permutation `π` of strings of `n` bytes, and `c116_exists` that there is one. `c116_parity_partial` gives the parity in terms of `E0` of the specification of AEZ. For 32 bytes or more, `ParityBytes.step_even` (no code) says that adding to some bytes a function of the others is even, and `Long.steps_core` that AEZ-core is a sequence of such steps.
* For C115: `Many.hybrid` is the argument that replaces one object after the other; it speaks of no code. `only i H A` is the attack on object `i` that answers for the others with `H`. The theorems for `Prp`, `Prg` and `Prf` are C114, C101 and C93 under this sum; `c115_derived` adds `derive_key` of one `Prg` as the source of the keys of `Prf` objects.
* For C114: the attack is on `AezWhole.code`, one key behind the functions on strings and on integers; `toStrings` is the attack on strings that it is, so the bound is that of C113 with `m` at most 4.
* For C113: the offset of pair `i` is (2^(3 + (i-1)/8) + (i-1)%8) I, with I of the key; for `i` = 1001 that is 2^128 + 0 = 2^7 + 7, the same as for `i` = 40. The theorem about the exchange is about the code (both
  directions); the one about the attack gives the exact success of two questions, and `c113_assumption` says which assumption of C111 and C112 fails. For up to
  1000 pairs `c113_strings_partial` replaces the assumption of C112 about 2 l + 18 keyed functions by one about three functions (AES with four rounds and round keys J, I, L, 0 for E(0,i), E(1,i) and the hash; four rounds
  with L, I, J, L for E(2,i); ten rounds for E(-1,i)) behind uniform offsets. The proof needs that the offsets are different multiples of I, that is that `x` generates the multiplicative group of GF(2^128) (`AezWide.period`, with the
  prime factors of 2^128 - 1, and `AezMask.mk_inj`), and `Masked.close`: one random function behind offsets is as good as many unless two questions meet. That the three functions (with I, J, L both in the offsets and in the
  round keys) look random to `toFunctions A` is the remaining assumption.
* For C112: as C110 and C111, with strings of all lengths (from `m` bytes) in one attack. Strings of less than 32 bytes ask for E(0,3), E(0,6), E(0,7) (with the hash added to the block), longer ones for the other
  functions; the proof uses that the two sets are disjoint. The empty string is its own encryption and decryption (C70) and adds nothing.
* For C111: as C110, for AEZ-core. The functions E(0,4), E(0,5), E(-1,4), E(-1,5) handle the partial blocks; the hash of nonce and associated data is part of the keyed functions with
  indices 1 and 2. The proof has three steps. `Wide.system` shows that a permutation of the shape of AEZ-core, made of uniform functions on any ring of characteristic 2, answers like the
  game in which all answers that are not known are uniform; `Fresh.perm_close` shows the same for uniform permutations; `Aez/StringWide`, `Aez/SideWide` and `Aez/ReduceWide` show that AEZ-core has that
  shape, for all lengths. The terms of the bound, times 2^128: q l (2 q l - 1) for inner collisions of the blocks, l q^2 for answers that repeat a second block, the rest for the sums.
* For C110: the theorem is a reduction. The term `adv r (toFunctions A)` compares E(0,i) of AEZ under a uniform key of 48 bytes, with the hash of the (fixed) nonce and
  associated data added to the block (or to the result), and E(-1,i), with uniform functions. E(0,i) is four rounds of AES, which attacks that choose its inputs freely can tell from random; the
  designers of AEZ rely on the fact that `toFunctions A` cannot choose them freely after the first rounds. That is an assumption which the theorem makes explicit
  and does not prove. The bound is weak for strings of a few bytes (for 1 byte it says nothing from 5 questions on), because only the first four rounds are used.
  AEZ-core is covered for 32 bytes only, where it is four rounds with E(0,1), E(-1,1), E(-1,2), E(0,2); longer strings are in C111 and C112. `Hcoef.lean` and `Feistel.lean` (the H-coefficient technique; four rounds of Feistel as a strong pseudorandom
  permutation) are general and have no hypothesis besides those written.
* For C109: a program may read and write its own buffers only; what it gives up is their contents at that moment. Copies inside `std::string` (the results and
  the arguments), what the functions of libsodium, mbedTLS and RELIC leave on their own stacks, registers, spilled values and copies made by the compiler are
  outside the model, as is the removal of `memset` by an optimiser (`sodium_memzero` is what the code uses). Keys are in C20-C22, big integers in C85,
  the buffers of `unwrap` in C60.
* For C108: an observer sees branches and the region, offset and width of accesses to buffers; hash, ChaCha20, BLAKE2b and the AEAD of libsodium read and write
  their arguments and show nothing else, and the AEAD clears the output when it refuses; the selection in `get_child` is not a branch; the counter of a block is
  data; comparisons of template constants (`N < 128`) give no event.
* For C107: an observer sees branches and the region, offset and width of accesses to the buffers and tables of base64 and PEM; locals are registers, `&&` and
  `||` are branches, a null output pointer comes with the length 0, `calloc` succeeds.
* For C87: an observer sees branches and the region, offset and width of accesses to buffers and to local arrays that are indexed; other locals and the fields
  of the context are at fixed addresses and give no event; vector and AES instructions take time independent of their operands; `unlock`/`lock` of the key
  (system calls) are not traced.
* Assumptions about external code, always visible as parameters or hypotheses:
  * `crypto_stream_chacha20_xor_ic` is counter mode over a block function (`Verif/Prg/Model.lean`).
  * BLAKE2b/SHA-512 return 64 bytes; the AEAD decrypts what it encrypted and only that (`Cipher`: `Prims.Ok`); ChaCha20-IETF is a key stream.
  * `sodium_malloc`, `sodium_mprotect_*`, `sodium_free`: allocation, protection, wiping on release (`Key`).
  * Ed25519: a commutative group with an injective encoding, `from_uniform` maps into it (`SetHash`: `Curve.Ok`); for C98 the subgroup is cyclic of prime order (`Gen`) and the preimages of a point under `from_uniform` can be listed (`Inverse`; Elligator 2 followed by a multiplication by 8 has at most 32, this number is not proved).
  * RELIC: three groups of the same prime order, bilinear pairing, injective encodings, `bn_gcd_ext` (`Ppke`: `Grp.Ok`).
  * RELIC numbers: arithmetic functions compute the right number without leading zero digits, `bn_cmp` and `bn_is_zero` look at the number of digits first, `bn_mod`, `bn_gcd_ext` and `bn_mxp` satisfy `Prims.Ok` (`Relic`), `bn_size_str` counts the zero byte, with `CHECK=off` `bn_write_bin` does not stop at a short buffer.
  * OpenSSL 1.0: `BN_mod_exp`, `BN_bn2bin`, `BN_num_bytes`, `RSA_private_decrypt`, `RSA_public_encrypt` without padding, as described at the head
    of `Tdp/OpenSsl.lean`; reading and writing PEM is a parameter there.
  * `strstr`, `memcpy`, `memset`, `memmove`, `std::sort`, `std::to_string` by their specifications.
  * The AES round: nothing is assumed (`c70_aes` names the FIPS 197 round, which `_mm_aesenc_si128` is trusted to compute).
  * `Aez/Spec.lean` is trusted to be AEZ v4 as published; there was no access to the document or to its test vectors while it was written.

### Axioms of every theorem in the manifest

**no axioms** (6 theorems)

* C07: `RCPrf.c07_constructor_accepts`
* C12: `Prg.c12_rcprf_window`
* C19: `Mac.c19_rejects`
* C53: `Cipher.c53_unavailable`
* C74: `Bignum.c74_swap_always`
* C97: `Relic.c97_hash_inputs_false`

**`propext`** (45 theorems)

* C07: `RCPrf.c07_false`
* C08: `RCPrf.c08_empty_not_roundtrip`
* C10: `RCPrf.c10_inverted_false`
* C100: `Io.c100_shorter_false`
* C107: `Io.Traced.c107_refused_false`
* C108: `Trace.Sym.c108_encrypt`
* C109: `Scrub.c109_scalar_false`
* C11: `RCPrf.c11_height66_false`
* C19: `Mac.c19_string`
* C21: `Key.c21_null`
* C39: `Tdp.c39_size_zero`, `Tdp.c39_size_one_false`
* C46: `Io.c46_int_false`
* C54: `Bignum.c54_zeros`
* C56: `Bignum.c56_exp_null_false`
* C57: `RCPrf.c57_unaligned_false`
* C59: `Key.c59_shared_false`
* C63: `Bignum.c63_mod_int_false`, `Bignum.c63_mod_int_null_false`, `Bignum.c63_div_alias_false`, `Bignum.c63_div_alias_small_false`
* C65: `Bignum.c65_sizes`, `Bignum.c65_one`
* C69: `Rsa.c69_copy_false`, `Rsa.c69_assign_false`
* C73: `Bignum.c73_write_null_false`, `Bignum.c73_write_null_hex`
* C77: `Key.Threads.c77_serial`, `Key.Threads.c77_race_false`
* C78: `Key.Life.c78_start`
* C81: `Bignum.c81_overflow`
* C83: `Lib.c83_unset_witness`, `Lib.c83_avail`, `Lib.c83_reinit_witness`, `Lib.c83_stop_witness`, `Lib.c83_null_witness`
* C85: `Heap.c85_pem_residue`
* C91: `Wrapper.Game.c91_headers`
* C96: `Relic.c96_int`
* C97: `Relic.c97_hash_inputs`
* C99: `Io.c99_strings`, `Io.c99_bool_false`, `Io.c99_bits_false`, `Io.c99_alg_null_false`, `Io.c99_sequence_empty_false`

**`Quot.sound`, `propext`** (170 theorems)

* C07: `RCPrf.c07_height64_eval_undefined`
* C09: `RCPrf.c09_deserialize_sound`
* C100: `Io.c100_free`
* C101: `Prg.Game.c101_number`
* C103: `Key.Fail.c103_values`, `Key.Fail.c103_safe`, `Key.Fail.c103_strong`, `Key.Fail.c103_protected`, `Key.Fail.c103_owner`, `Key.Fail.c103_released_partial`, `Key.Fail.c103_lost_false`, `Key.Fail.c103_enosys_false`, `Key.Fail.c103_lucky`
* C104: `Tdp.Hard.c104_factor`
* C105: `Tdp.Blind.c105_only`
* C108: `Trace.Sym.c108_hmac`, `Trace.Sym.c108_prf`, `Trace.Sym.c108_prg`, `Trace.Sym.c108_decrypt`
* C109: `Scrub.c109_hmac`, `Scrub.c109_prf`, `Scrub.c109_prf_empty_false`, `Scrub.c109_derive_key`, `Scrub.c109_prg`, `Scrub.c109_keys`, `Scrub.c109_duplicate`, `Scrub.c109_decrypt_string_false`, `Scrub.c109_prp_false`, `Scrub.c109_hash_false`, `Scrub.c109_random_string_false`, `Scrub.c109_eval`, `Scrub.c109_sample`, `Scrub.c109_invert`, `Scrub.c109_invert_mult`, `Scrub.c109_generate_false`, `Scrub.c109_encrypt_false`, `Scrub.c109_decrypt_false`, `Scrub.c109_leaf_false`
* C111: `AezWide.c111_questions`
* C113: `AezMask.c113_shape`
* C13: `Prg.c13_empty_false`
* C14: `Prg.c14_windows_disjoint`
* C16: `Mac.c16_hmac_partial`, `Mac.c16_truncation`, `Mac.c16_rejects`, `Mac.c16_moved_key_throws`, `Mac.c16_overloads`, `Mac.c16_long_key_truncated`, `Mac.c16_long_key_false`, `Mac.c16_very_long_key_undefined`
* C17: `Mac.c17_prf`, `Mac.c17_length`, `Mac.c17_bytes`, `Mac.c17_overloads`, `Mac.c17_null`
* C18: `Mac.c18_repeat_false`, `Mac.c18_no_termination_false`
* C19: `Mac.c19_prefix`
* C20: `Key.c20_value_semantics`, `Key.c20_unique_owner`, `Key.c20_all_released_partial`, `Key.c20_empty_after_move`, `Key.c20_callback_leak_false`, `Key.c20_nolock_null_false`
* C21: `Key.c21_import`, `Key.c21_content_constant`
* C22: `Key.c22_at_rest_partial`, `Key.c22_prp_encrypt_false`, `Key.c22_prg_null_false`
* C23: `Cipher.c23_roundtrip`, `Cipher.c23_roundtrip_buf`, `Cipher.c23_in_place_false`
* C24: `Cipher.c24_decrypt`, `Cipher.c24_rejects`
* C25: `Cipher.c25_ciphertext`, `Cipher.c25_pairs`
* C27: `Wrapper.c27_no_ub`
* C28: `Wrapper.c28_headers`
* C29: `Wrapper.c29_keys`, `Wrapper.c29_separated`
* C30: `Aez.c30_refusals`
* C37: `Tdp.c37_rejects_large`
* C39: `Tdp.c39_order_above`, `Tdp.c39_copy`, `Tdp.c39_order_zero_false`, `Tdp.c39_impl_assign_false`
* C41: `Tdp.c41_invert_mult_short_false`, `Tdp.c41_short_modulus_false`, `Tdp.c41_long_modulus_false`
* C46: `Io.c46_first_zero_false`
* C51: `Ppke.c51_reserved_partial`, `Ppke.c51_share_roundtrip`
* C53: `Cipher.c53_deserialize_partial`, `Cipher.c53_roundtrip`, `Cipher.c53_cipher_count_false`
* C58: `Prg.c58_consumed_partial`, `Prg.c58_no_keys_false`
* C59: `Key.c59_disjoint_partial`
* C60: `Wrapper.c60_released_partial`, `Wrapper.c60_leak_false`
* C61: `Wrapper.c61_prg`
* C63: `Bignum.c63_mod_int_partial`
* C65: `Bignum.c65_bits_false`
* C67: `Rsa.c67_sizes`
* C71: `Tdp.OpenSsl.c71_inverse`, `Tdp.OpenSsl.c71_pool_edges_false`
* C73: `Bignum.c73_radix`
* C74: `Bignum.c74_swap`
* C75: `RCPrf.c75_outside`, `RCPrf.c75_empty`
* C76: `Rsa.Threads.c76_results`, `Rsa.Threads.c76_returns`, `Rsa.Threads.c76_no_race`
* C77: `Key.Threads.c77_off`, `Key.Threads.c77_values`, `Key.Threads.c77_fault_false`, `Key.Threads.c77_locked_false`, `Key.Threads.c77_exposed_false`
* C78: `Key.Life.c78_clean`, `Key.Life.c78_history`, `Key.Life.c78_end`, `Key.Life.c78_plain`, `Key.Life.c78_hmac`, `Key.Life.c78_hmac_empty`, `Key.Life.c78_rcprf`, `Key.Life.c78_rcprf_refused`, `Key.Life.c78_element`, `Key.Life.c78_element_refused`, `Key.Life.c78_prp`, `Key.Life.c78_prp_new`, `Key.Life.c78_wrapper`, `Key.Life.c78_wrapper_empty`, `Key.Life.c78_derive_static`, `Key.Life.c78_derive_static_empty`, `Key.Life.c78_derive_key`, `Key.Life.c78_derive_key_static`, `Key.Life.c78_derive_keys`, `Key.Life.c78_derive_keys_static`, `Key.Life.c78_no_keys_false`, `Key.Life.c78_derive_keys_static_empty`, `Key.Life.c78_duplicate`, `Key.Life.c78_deserialize`, `Key.Life.c78_generate`, `Key.Life.c78_leaf`, `Key.Life.c78_range`, `Key.Life.c78_constrain`, `Key.Life.c78_lost_false`, `Key.Life.c78_lost_forever`
* C79: `Aez.c79_shift`, `Aez.c79_is_zero`, `Aez.c79_sll4_differs`
* C80: `Bignum.Kernel.c80_same`, `Bignum.Kernel.c80_core`
* C83: `Lib.c83_ready_partial`, `Lib.c83_undo_partial`
* C84: `Aez.c84_setup`, `Aez.c84_setup_bounds`
* C85: `Heap.c85_eval_loses`, `Heap.c85_ctor_loses`, `Heap.c85_invertMult_loses`, `Heap.c85_isPrime_loses`, `Heap.c85_pool_assign_ub`, `Heap.c85_pool_one_ub`
* C86: `Tdp.c86_half_update`
* C87: `Aez.Traced.c87_encrypt`, `Aez.Traced.c87_rejection_visible`
* C88: `Bignum.Traced.c88_assign_partial`, `Bignum.Traced.c88_swap_partial`, `Bignum.Traced.c88_calls`
* C93: `Mac.Game.c93_sizes_false`

**`Classical.choice`, `Quot.sound`, `propext`** (499 theorems)

* C01: `RCPrf.c01_constrained_eval_eq`, `RCPrf.c01_constrained_eval_tree`, `RCPrf.c01_constrain_accepted`
* C02: `RCPrf.c02_eval_outside_throws`, `RCPrf.c02_range_outside_throws`, `RCPrf.c02_material_inside`
* C03: `RCPrf.c03_range_in_order`
* C04: `RCPrf.c04_constrained_range`
* C05: `RCPrf.c05_reconstrain`
* C06: `RCPrf.c06_cover`
* C07: `RCPrf.c07_eval_range_check_partial`, `RCPrf.c07_alias`, `RCPrf.c07_height1_eval_undefined`, `RCPrf.c07_range_false`
* C08: `RCPrf.c08_roundtrip`, `RCPrf.c08_roundtrip_constrained`, `RCPrf.c08_deserialize_sound`
* C09: `RCPrf.c09_roundtrip`
* C10: `RCPrf.c10_full_key_range_checks`, `RCPrf.c10_constrained_key_partial`
* C100: `Io.c100_store`, `Io.c100_found_partial`, `Io.c100_find`, `Io.c100_made`
* C101: `Prg.Game.c101_generator`, `Prg.Game.c101_code`, `Prg.Game.c101_derived_keys`, `Prg.Game.c101_pairs`, `Prg.Game.c101_rcprf`, `Prg.Game.c101_lengths_false`
* C102: `Mac.Rom.c102_hmac`, `Mac.Rom.c102_hmac_code`, `Mac.Rom.c102_prf`, `Mac.Rom.c102_forgery`, `Mac.Rom.c102_guess`
* C104: `Tdp.Hard.c104_chain`, `Tdp.Hard.c104_bound`, `Tdp.Hard.c104_sampled`, `Tdp.Hard.c104_everywhere`, `Tdp.Hard.c104_product_false`
* C105: `Tdp.Blind.c105_operands`, `Tdp.Blind.c105_first_partial`, `Tdp.Blind.c105_same_partial`, `Tdp.Blind.c105_apart_false`, `Tdp.Blind.c105_relation_false`, `Tdp.Blind.c105_jacobi_false`, `Tdp.Blind.c105_short_false`
* C106: `Tdp.Tokens.c106_random_hash`, `Tdp.Tokens.c106_prf`, `Tdp.Tokens.c106_names_false`
* C107: `Io.Traced.c107_refines`, `Io.Traced.c107_encode`, `Io.Traced.c107_size`, `Io.Traced.c107_decode`, `Io.Traced.c107_write`, `Io.Traced.c107_export`, `Io.Traced.c107_import`
* C108: `Trace.Sym.c108_refines`, `Trace.Sym.c108_tree`, `Trace.Sym.c108_subtree`
* C109: `Scrub.c109_cipher`
* C11: `RCPrf.c11_order_independent`, `RCPrf.c11_any_sort`, `RCPrf.c11_accepted_covers`, `RCPrf.c11_refused`
* C110: `AezRandom.c110_strings`, `AezRandom.c110_numbers`, `AezRandom.c110_questions`
* C111: `AezWide.c111_strings`
* C112: `AezAll.c112_strings`, `AezAll.c112_questions`
* C113: `AezMask.c113_strings_partial`, `AezWide.c113_exchange`, `AezWide.c113_attack`, `AezWide.c113_assumption`
* C114: `AezWhole.c114_object`, `AezWhole.c114_object_partial`, `AezWhole.c114_bytes`, `AezWhole.c114_apart_false`
* C115: `Many.c115_prp`, `Many.c115_prg`, `Many.c115_prf`, `Many.c115_derived`
* C116: `AezParity.c116_exists`, `AezParity.c116_parity_partial`, `AezParity.c116_random_partial`, `AezParity.c116_uniform`, `AezParity.c116_even`
* C117: `Cipher.Many.c117_ciphers`, `Cipher.Many.c117_forgery`, `Cipher.Many.c117_cross`
* C118: `Wrapper.Many.c118_wrappers`, `Wrapper.Many.c118_forgery`, `Wrapper.Many.c118_cross`
* C119: `Io.Exact.c119_accept`, `Io.Exact.c119_value`, `Io.Exact.c119_canonical`, `Io.Exact.c119_spaces_false`
* C12: `Prg.c12_window`
* C120: `Io.Der.c120_private`, `Io.Der.c120_public`, `Io.Der.c120_subject`, `Io.Der.c120_pkcs8`, `Io.Der.c120_der`, `Io.Der.c120_trailing`, `Io.Der.c120_zeros`
* C121: `Io.PemExact.c121_pem`, `Io.PemExact.c121_private`, `Io.PemExact.c121_private_complete`, `Io.PemExact.c121_public`
* C122: `Io.Normal.c122_private`, `Io.Normal.c122_normal`, `Io.Normal.c122_public`, `Io.Normal.c122_part`
* C123: `Io.Composite.c123_permutation_partial`, `Io.Composite.c123_square`, `Io.Composite.c123_square_public`, `Io.Composite.c123_false`, `Io.Permutation.c123_exact`, `Io.Permutation.c123_exact_public`
* C124: `Io.Stream.c124_exact`, `Io.Stream.c124_rest`, `Io.Stream.c124_sequence`
* C13: `Prg.c13_split`, `Prg.c13_overloads_partial`
* C14: `Prg.c14_derived_keys`, `Prg.c14_bulk_eq_single`
* C15: `Prg.c15_overflow`, `Prg.c15_exact`
* C18: `Mac.c18_counters_partial`
* C24: `Cipher.c24_bounds`
* C26: `Wrapper.c26_unwrap_wrap`, `Wrapper.c26_classes`
* C27: `Wrapper.c27_accepts_only_wraps`, `Wrapper.c27_is_wrap`, `Wrapper.c27_tamper`
* C28: `Wrapper.c28_confusion_partial`, `Wrapper.c28_rcprf_partial`, `Wrapper.c28_confusion_false`
* C30: `Aez.c30_roundtrip`, `Aez.c30_permutation`, `Aez.c30_from_key`
* C31: `Aez.c31_roundtrip`, `Aez.c31_bijection`
* C32: `Aez.c32_memory`, `Aez.c32_in_place`
* C33: `SetHash.c33_order`
* C34: `SetHash.c34_multiplicity`, `SetHash.c34_undo`
* C35: `SetHash.c35_history`
* C36: `SetHash.c36_reimport`
* C37: `Tdp.c37_eval`, `Tdp.c37_invert_eval`, `Tdp.c37_eval_invert`, `Tdp.c37_bijection`, `Tdp.c37_sequence`, `Tdp.c37_generated`, `Tdp.c37_imported`, `Tdp.c37_after_rng_failure_false`
* C38: `Tdp.c38_eval_back`, `Tdp.c38_iterated`, `Tdp.c38_large_input`
* C39: `Tdp.c39_exponent`, `Tdp.c39_pool_partial`, `Tdp.c39_sizes`, `Tdp.c39_other_exponent_false`
* C40: `Tdp.c40_generate`, `Tdp.c40_sample`, `Tdp.c40_long_modulus_false`
* C41: `Tdp.c41_lengths_partial`, `Tdp.c41_pool_partial`
* C42: `Io.c42_export_private`, `Io.c42_import_private`, `Io.c42_private`, `Io.c42_private_2048`, `Io.c42_public`, `Io.c42_generated`, `Io.c42_inverse_roundtrip`, `Io.c42_inverse_safe`, `Io.c42_import_pkcs8`, `Io.c42_import_private_safe`, `Io.c42_import_public_safe`, `Io.c42_private_false`, `Utils.c42_deserialize_serialize`, `Utils.c42_deserialize_bounds`
* C43: `Utils.c43_first`
* C44: `Io.c44_encode`, `Io.c44_length`, `Io.c44_decode`, `Io.c44_roundtrip`
* C45: `Io.c45_bounds`, `Io.c45_alphabet`
* C46: `Io.c46_len`, `Io.c46_tag`, `Io.c46_mpi_partial`, `Io.c46_mpi_zero`, `Io.c46_int_partial`
* C47: `Io.c47_len`, `Io.c47_tag`, `Io.c47_int`, `Io.c47_int_range`, `Io.c47_mpi`, `Io.c47_bits`, `Io.c47_alg`
* C48: `Io.c48_write`, `Io.c48_read_safe`, `Io.c48_read`, `Io.c48_roundtrip`
* C49: `Ppke.c49_decrypt`, `Ppke.c49_punctured`, `Ppke.c49_collision`, `Ppke.c49_encrypt`, `Ppke.c49_blind`
* C50: `Ppke.c50_order`, `Ppke.c50_puncture`, `Ppke.c50_puncture_total`, `Ppke.c50_encrypt_public`
* C51: `Ppke.c51_extract`, `Ppke.c51_ct_roundtrip`, `Ppke.c51_inc_puncture_false`
* C52: `Ppke.c52_labels`, `Ppke.c52_independent`
* C54: `Bignum.c54_write`, `Bignum.c54_size`, `Bignum.c54_read`, `Bignum.c54_roundtrip`, `Bignum.c54_model_write`, `Bignum.c54_model_read`, `Bignum.c54_sign_false`
* C55: `Bignum.c55_add`, `Bignum.c55_sub`, `Bignum.c55_add_int`, `Bignum.c55_sub_int`, `Bignum.c55_abs`, `Bignum.c55_mul`, `Bignum.c55_limbs`, `Bignum.c55_mul_int`, `Bignum.c55_bitlen`, `Bignum.c55_shift_left`, `Bignum.c55_shift_left_false`, `Bignum.c55_shift_right`, `Bignum.c55_compare`, `Bignum.c55_bits`
* C56: `Bignum.c56_exp`, `Bignum.c56_exp_congruent_partial`, `Bignum.c56_exp_refuse`, `Bignum.c56_exp_negative_false`, `Bignum.c56_model_exp`, `Bignum.c56_inv`, `Bignum.c56_inv_unique`, `Bignum.c56_model_inv`, `Bignum.c56_gcd_partial`, `Bignum.c56_gcd_zero_false`, `Bignum.c56_model_gcd`
* C57: `RCPrf.c57_eval_range_agrees_partial`
* C61: `Wrapper.c61_mac`, `Wrapper.c61_cipher`, `Wrapper.c61_wrapper`
* C62: `Aez.c62_schedule`, `Aez.c62_doubling`, `Aez.c62_offsets`, `Aez.c62_pair_offset`, `Aez.c62_pair_value`
* C63: `Bignum.c63_div`, `Bignum.c63_div_zero`, `Bignum.c63_div_long`, `Bignum.c63_mod`, `Bignum.c63_model`
* C64: `Bignum.c64_accepted`, `Bignum.c64_accepted_prime`, `Bignum.c64_composite_quarter`, `Bignum.c64_rabin`, `Bignum.c64_prime_accepted_partial`, `Bignum.c64_outcomes`, `Bignum.c64_small`, `Bignum.c64_const_accepted`, `Bignum.c64_accepted_prime_false`, `Bignum.c64_bases_high`, `Bignum.c64_fermat_rejected`, `Bignum.c64_prime_accepted_false`
* C65: `Bignum.c65_result`, `Bignum.c65_small_prime`, `Bignum.c65_result_safe`, `Bignum.c65_no_ub`, `Bignum.c65_ends`, `Bignum.c65_two_bits`
* C66: `Rsa.c66_history`, `Rsa.c66_inverse`, `Rsa.c66_from_string`, `Rsa.c66_string_outcomes`
* C67: `Rsa.c67_outcomes`, `Rsa.c67_generated`, `Rsa.c67_first_pair`
* C68: `Rsa.c68_pool`, `Rsa.c68_sizes`
* C69: `Rsa.c69_public`
* C70: `Aez.c70_string`, `Aez.c70_buffer`, `Aez.c70_integer`, `Aez.c70_inverse`, `Aez.c70_aes`
* C71: `Tdp.OpenSsl.c71_eval`, `Tdp.OpenSsl.c71_generate`, `Tdp.OpenSsl.c71_sample`, `Tdp.OpenSsl.c71_invert`, `Tdp.OpenSsl.c71_invert_refuses`, `Tdp.OpenSsl.c71_invert_array_false`, `Tdp.OpenSsl.c71_invert_mult`, `Tdp.OpenSsl.c71_pool`, `Tdp.OpenSsl.c71_pool_large_false`, `Tdp.OpenSsl.c71_pool_size_false`, `Tdp.OpenSsl.c71_copy`, `Tdp.OpenSsl.c71_serialize_false`
* C72: `Rsa.c72_import_private`, `Rsa.c72_import_public`, `Rsa.c72_export_private`, `Rsa.c72_export_public`, `Rsa.c72_reload`, `Rsa.c72_reload_public`, `Rsa.c72_history`, `Rsa.c72_from_text`, `Rsa.c72_public`, `Rsa.c72_pool`, `Rsa.c72_generated`, `Rsa.c72_export_false`
* C73: `Bignum.c73_read`, `Bignum.c73_read_all`, `Bignum.c73_read_hex`, `Bignum.c73_read_sound`, `Bignum.c73_read_invalid`, `Bignum.c73_read_safe`, `Bignum.c73_write`, `Bignum.c73_roundtrip`, `Bignum.c73_write_long`
* C74: `Bignum.c74_assign`, `Bignum.c74_shrink`, `Bignum.c74_div_int`
* C75: `RCPrf.c75_inside`, `RCPrf.c75_range_inside`, `RCPrf.c75_range_outside`, `RCPrf.c75_gen_inside`, `RCPrf.c75_gen_outside`
* C76: `Rsa.Threads.c76_values`, `Rsa.Threads.c76_fills`, `Rsa.Threads.c76_first_false`, `Rsa.Threads.c76_torn_false`, `Rsa.Threads.c76_alone`, `Rsa.Threads.c76_invert_race`, `Rsa.Threads.c76_invert_false`, `Rsa.Threads.c76_wrong_false`
* C79: `Aez.c79_context`, `Aez.c79_string`, `Aez.c79_integer`, `Aez.c79_memory`, `Aez.c79_exchange`, `Aez.c79_aes`, `Aez.c79_double`, `Aez.c79_masks`, `Aez.c79_aead_encrypt`, `Aez.c79_aead_decrypt`, `Aez.c79_aead_exchange`, `Aez.c79_aead_aes_partial`, `Aez.c79_setup`
* C80: `Bignum.Kernel.c80_model`, `Bignum.Kernel.c80_value`
* C81: `Bignum.c81_word`, `Bignum.c81_word_partial`, `Bignum.c81_shift_false`, `Bignum.c81_wide`, `Bignum.c81_div`, `Bignum.c81_div_value`
* C82: `Bignum.Tape.c82_composite`, `Bignum.Tape.c82_prime`, `Bignum.Tape.c82_weight`, `Bignum.Tape.c82_usable`, `Bignum.Tape.c82_quarter`, `Bignum.Tape.c82_rsa`, `Bignum.Tape.c82_half`, `Bignum.Tape.c82_prime_full`
* C83: `Lib.c83_no_ub`, `Lib.c83_count`, `Lib.c83_balanced`, `Lib.c83_pairing`, `Lib.c83_two_threads`, `Lib.c83_unset_forever`, `Lib.c83_locks_partial`
* C84: `Aez.Aead.c84_encrypt_partial`, `Aez.Aead.c84_overread`, `Aez.Aead.c84_wrap`, `Aez.Aead.c84_decrypt_partial`, `Aez.Aead.c84_spec`, `Aez.Aead.c84_authentic_partial`, `Aez.Aead.c84_roundtrip`, `Aez.Aead.c84_empty`, `Aez.Aead.c84_forgery`, `Aez.Aead.c84_forgery_concrete`, `Aez.Aead.c84_prp`
* C85: `Heap.c85_call`, `Heap.c85_prog`, `Heap.c85_client_partial`, `Heap.c85_whole`
* C86: `Tdp.c86_history_partial`, `Tdp.c86_refines`, `Tdp.c86_defect`, `Tdp.c86_sequence`, `Tdp.c86_right_iff`, `Tdp.c86_half_drawn`, `Tdp.c86_forever_false`
* C87: `Aez.Traced.c87_refines`, `Aez.Traced.c87_decrypt`, `Aez.Traced.c87_prp_refines`, `Aez.Traced.c87_prp`
* C88: `Bignum.Traced.c88_assign_refines`, `Bignum.Traced.c88_swap_refines`, `Bignum.Traced.c88_exponent`, `Bignum.Traced.c88_exponent_unique`, `Bignum.Traced.c88_factors`, `Bignum.Traced.c88_base_exists`, `Bignum.Traced.c88_carry`, `Rsa.c88_inversion_reveals`
* C89: `RCPrf.Game.c89_outside`, `RCPrf.Game.c89_values`, `RCPrf.Game.c89_hybrid`, `RCPrf.Game.c89_view`, `RCPrf.Game.c89_ideal`, `RCPrf.Game.hybrid`
* C90: `Cipher.Game.c90_cipher`, `Cipher.Game.c90_derived`, `Cipher.Game.c90_code`, `Cipher.Game.c90_forgery`, `Cipher.Game.c90_messages`
* C91: `Wrapper.Game.c91_wrapper`, `Wrapper.Game.c91_code`, `Wrapper.Game.c91_forgery`
* C92: `Rsa.c92_sample`, `Rsa.c92_sample_exact`, `Rsa.c92_generate`, `Ppke.c92_random_exact`, `Ppke.c92_random_false`, `Ppke.c92_pseudorandom`
* C93: `Mac.Game.c93_prf_partial`, `Mac.Game.c93_advantage`, `Rsa.c93_generate`, `Mac.Game.c93_long_false`
* C94: `RCPrf.Adapt.c94_adaptive`, `RCPrf.Adapt.c94_values`, `RCPrf.Adapt.c94_bounds`, `RCPrf.Adapt.hyb_ideal`, `RCPrf.Adapt.hyb_step`, `RCPrf.Adapt.ideal_values`, `RCPrf.Adapt.real_hyb`
* C95: `Ppke.Game.c95_secrecy`, `Ppke.Game.c95_reuse_false`, `Ppke.Game.run_hyb`, `Ppke.Game.sim_hyb`, `Ppke.Game.hyb_steps`, `Ppke.Game.hyb_hides`, `Oracle.E_det`, `Oracle.E_det_fresh`
* C96: `Relic.c96_scalars`, `Relic.c96_residue`, `Relic.c96_equal`, `Relic.c96_bytes`, `Relic.c96_group`, `Relic.c96_target`, `Relic.c96_and`, `Relic.c96_agrees`, `Relic.c96_subtract_false`, `Relic.c96_multiply_false`, `Relic.c96_least_int_false`, `Relic.c96_hash_false`, `Relic.c96_and_false`
* C97: `Relic.c97_read_scalar`, `Relic.c97_print_scalar_partial`, `Relic.c97_print_scalar_false`, `Relic.c97_print_point`, `Relic.c97_print_point_false`, `Relic.c97_print_target_partial`, `Relic.c97_print_target_false`, `Relic.c97_print_infinity`
* C98: `SetHash.Game.c98_collision`, `SetHash.Game.c98_fixed`, `SetHash.Game.c98_vectors`, `SetHash.Game.c98_logarithms`, `SetHash.Game.c98_multiples_false`, `SetHash.Game.table_lazy`, `SetHash.Game.hide`, `SetHash.Game.chance_reduce`
* C99: `Io.c99_bool`, `Io.c99_text`, `Io.c99_bits`, `Io.c99_bits_short`, `Io.c99_alg_null`, `Io.c99_alg_par`, `Io.c99_within`, `Io.c99_header`, `Io.c99_sequence_exact`, `Io.c99_sequence_der`, `Io.c99_sequence_safe`

## Status of the properties

| Property | Status | Remark |
|---|---|---|
| C01 | proved | heights up to 63; the tree-value version covers 64; PRG stream is a parameter |
| C02 | proved | key material statement is symbolic: derivability by going from a node to its children |
| C03 | proved | heights 2..63 |
| C04 | proved |  |
| C05 | proved |  |
| C06 | proved |  |
| C07 | partial | property is false for the code: indices 2^(h-1)..2^h-1 alias other leaves, heights 1 and 64 are undefined; counterexamples proved |
| C08 | proved |  |
| C09 | proved |  |
| C10 | partial | full keys: proved; constrained keys: inverted ranges are not rejected by the code (counterexamples proved) |
| C100 | partial | proved except that a value stored over a longer one is found with the tail of the old one (c100_shorter_false; the exact value is in c100_store); the value to store does not overlap the list |
| C101 | proved | exact averages over uniform keys; the block function is a parameter, crypto_stream_chacha20_xor_ic is counter mode over it; the ideal stream has 64 D bytes for any D; c101_lengths_false shows what does not hold; running times are not modelled |
| C102 | proved | exact averages over uniform keys and uniform tables of hash values of the strings of at most N bytes, for any N (random-oracle model: the real hash function is not a random table); keys of 32 bytes; running times are not modelled |
| C103 | partial | proved except that a constructor that throws after it allocated its buffer leaks it with the key inside (c103_lost_false; c103_released_partial excludes exactly these constructors), and that the flag says nothing where the system cannot protect pages (c103_enosys_false); compiled with memory locking |
| C104 | proved | exact averages over uniform seeds; that RSA is hard to invert is an assumption about the algorithms named by the theorem (solve), not proved; running times are not modelled, the algorithms make at most T evaluations for each question; c104_product_false shows that the inverses are not independent |
| C105 | partial | operands and their exact form proved for the code; that they hide the messages holds only for a first number uniform among all invertible ones, for one call, or for sequences that differ by c, c^2, c^4, ... (partial); the code violates the rest (proved) |
| C106 | proved | exact averages over uniform keys and uniform tables of hash values of the strings of at most N bytes, for any N (random-oracle model), or with the advantage against the Prf; that RSA is hard to invert is an assumption about the algorithms named by the theorem; running times are not modelled |
| C107 | proved | source-level events (compilers may turn branches into selections); local variables are registers; the events of the DER writer and parser and of the search for the markers are not part of the statement; the result is that the code leaks the key to such an observer |
| C108 | proved | source-level events; the functions of libsodium show only the addresses of their arguments; memory protection of keys is not traced; the leaf is shown because the offset of a child selects a branch of derive_key and prg_derivation |
| C109 | partial | the statement is proved as written, with exactly what each function leaves; marked partial because the code does not erase everything, and because the copies inside std::string, what the primitives of libsodium, mbedTLS and RELIC leave, registers and copies made by the compiler are not modelled; big integers are in C85, Key in C20-C22, unwrap in C60 |
| C11 | proved | for tree heights up to 65; beyond, a counterexample is proved |
| C110 | proved | a reduction: five of the seven keyed functions are four rounds of AES, so the remaining term is an assumption about the particular attack toFunctions A, not a standard one about AES; strings of more than 32 bytes are in C111 |
| C111 | proved | a reduction, as C110: the remaining term is an assumption about the particular attack toFunctions A; attacks that mix strings of less than 32 bytes with longer ones are in C112; from 1001 pairs on (32064 bytes) the assumption fails, see C113 |
| C112 | proved | a reduction, as C110 and C111: the remaining term is an assumption about the particular attack toFunctions A; from 1001 pairs on (32064 bytes) it fails, see C113 |
| C113 | partial | c113_strings_partial proves the property for strings of less than 32064 bytes (at most 1000 pairs), from an assumption about three AES functions, and c113_shape that the code uses only these; the code violates the property from 32064 bytes on: c113_exchange shows that two parts of 32 bytes are treated alike, c113_attack that two questions tell the code from random permutations with probability almost 1, c113_assumption that the assumption of C111 fails there |
| C114 | partial | the code violates the property: c114_bytes shows that an integer is treated as the string of its bytes, c114_apart_false that two calls tell the object from permutations of strings and other ones of integers with probability 1 - 256^-4 (or 256^-8); c114_object proves the statement with permutations that serve strings and integers alike, from the assumption of C112, c114_object_partial from that of C113 about three AES functions for strings of up to 32063 bytes |
| C115 | proved | reductions: the terms that remain are averages, over the keys of the other objects, of the advantage of one attack each on the keyed functions of AEZ, on the block function, or on HMAC; strings asked of Prf have a bound L that the loss does not depend on |
| C116 | partial | the code violates the property for strings of 16 bytes or more: c116_even proves that the permutation is even for every key and every length up to 4294967295; c116_parity_partial and c116_random_partial are the property for 1 to 15 bytes |
| C117 | proved | a reduction to C90: the terms that remain are averages, over the keys of the other objects, of the advantage of one attack each on the key derivation, and a bound on the attacks on one key of the authenticated encryption that these attacks are turned into |
| C118 | proved | a reduction to C91: the terms that remain (loss) are averages, over the keys of the other wrappers, of the advantages of one attack each on the key derivation, the tag and the key stream |
| C119 | proved | c119_spaces_false is the violation for texts of 2^32 characters and more, where the 32-bit counter of spaces wraps |
| C12 | proved | lengths up to 2^63 bytes; the ChaCha20 block function is a parameter |
| C120 | proved | the checks themselves (checkPub, checkPriv) are those of the model; PEM armour is C48 and C119 |
| C121 | proved | the bytes inside the armour are read as in C120, the body is decoded as in C119 |
| C122 | proved | that exporting can throw for imported keys with a long private exponent is c42_private_false |
| C123 | partial | violated by the code: mbedtls_rsa_check_privkey does not test whether the factors are primes, and a key with a square factor is accepted (c123_false); proved for prime factors, and refuted for every accepted key whose modulus is divisible by a square; c123_exact says exactly for which accepted keys it holds |
| C124 | proved | which bytes the constructor accepts is C121 |
| C13 | partial | the one-shot string overload throws for length 0 (counterexample proved); everything else proved |
| C14 | proved |  |
| C15 | proved |  |
| C16 | partial | proved for keys up to the hash block (128 bytes); longer keys, which the template accepts, are truncated or overflow (proved) |
| C17 | proved | all NBYTES for which the code terminates (1..65472) |
| C18 | partial | true up to 16384 output bytes; false beyond (8-bit counter repeats, 16-bit position never ends), both proved |
| C19 | proved |  |
| C20 | partial | all histories of key operations; a callback constructor whose callback throws leaks its buffer (proved), and without memory locking data() of an empty key is null |
| C21 | proved |  |
| C22 | partial | true for all histories without Prp::encrypt and without Prg::derive into a null buffer; both exceptions proved to violate it |
| C23 | proved | AEAD and key derivation are parameters with the laws of Prims.Ok; the remark theorem shows that in-place encryption (not promised) loses the message |
| C24 | proved |  |
| C25 | proved |  |
| C26 | proved | generic over classes whose serialization round-trips; shown for Cipher, Prf, Prg, Prp, RCPrf, ConstrainedRCPrf, and TdpInverse relative to the PEM parser |
| C27 | proved |  |
| C28 | partial | true for all pairs of types except RCPrf<11>/ConstrainedRCPrf<11>, for which a confusion is exhibited |
| C29 | proved |  |
| C30 | proved | AES-NI branch of aez.c; the AES round function is an arbitrary parameter |
| C31 | proved |  |
| C32 | proved | abytes = 0 and a 16-byte nonce, the only way Prp calls it |
| C33 | proved | Ed25519 is a commutative group with an injective encoding (Curve.Ok) |
| C34 | proved |  |
| C35 | proved |  |
| C36 | proved |  |
| C37 | partial | proved for every 2048-bit key generated or imported, every message and every sequence of inversions as long as one of the first eleven blinding candidates is invertible; after a failed blinding the next inversion is wrong (proved) |
| C38 | proved | keys with a 256-byte modulus |
| C39 | partial | exponent 65537, sizes 2..127, orders 1..size; the rest is refuted |
| C40 | partial | moduli below 256^256; refuted for longer ones |
| C41 | partial | 2048-bit keys and entry points other than invert_mult; the rest is refuted |
| C42 | proved | every key that passes mbedtls_rsa_check_privkey/pubkey and whose export succeeds (always for 2048-bit keys with a reduced exponent, in particular generated ones); blinding values are not part of the exported key; c42_private_false is a key that can be imported but not exported |
| C43 | proved | the two buffers together are smaller than the address space |
| C44 | proved | inputs shorter than 2^60 bytes |
| C45 | proved | inputs shorter than 2^63 bytes |
| C46 | partial | lengths, tags and positive big integers in full; small integers only below 256 (larger ones are truncated: c46_int_false); writing 0 as the first element reads past the buffer (c46_first_zero_false) |
| C47 | proved |  |
| C48 | proved | no allocation failure; strstr by its specification |
| C49 | proved | RELIC (groups, bilinear pairing, encodings, gcd) by its laws (Grp.Ok); randomness as arguments; colliding hashes throw (c49_collision) |
| C50 | proved | same laws as C49 |
| C51 | partial | incremental puncturing on the reserved tag throws nothing: it fails an assertion, or makes a share without assertions (c51_inc_puncture_false); points at infinity cannot be serialized |
| C52 | proved |  |
| C53 | partial | all true except the byte count of Cipher::deserialize, which is added to the value passed in (proved) |
| C54 | proved | the sign is not stored (c54_sign_false); memory is available up to MBEDTLS_MPI_MAX_LIMBS limbs |
| C55 | proved | results beyond MBEDTLS_MPI_MAX_LIMBS limbs are refused; shift counts within 640000 of 2^64 overflow (c55_shift_left_false) |
| C56 | partial | exponentiation proved for non-negative bases with limbs; for a negative base the result is congruent but may be N instead of 0, and a base without limbs is dereferenced; the inverse is proved completely |
| C57 | partial | property is false for unaligned elements, which the constructors accept |
| C58 | partial | false for derive_keys with n_keys = 0, which leaves the key usable (counterexample proved) |
| C59 | partial | true for distinct objects; false for a shared object (concrete schedules that fault or throw) |
| C60 | partial | false for the code: every refusal after the length check leaks the buffer (proved) |
| C61 | proved | memory locking enabled (the default): reading an empty key throws; Prp shares the Cipher treatment of its key in the at-rest model (C22) |
| C62 | proved |  |
| C63 | partial | div_mpi and mod_mpi proved; mod_int is wrong for divisors above 2^32 and dereferences null modulo 2 for an integer without limbs; the quotient may not be written over the dividend |
| C64 | partial | acceptance, the quarter bound and the outcomes proved; primes are accepted if the generator gives usable bases (partial), because bases are shifted to the length of n-1 and primes such as 65537 are then always rejected (c64_prime_accepted_false) |
| C65 | proved | the result may have nbits+1 bits (c65_bits_false); the search for a safe prime may return 1, which is no error code (c65_one) |
| C66 | proved | moduli of 256 bytes, as in the interface; the random source does not fail (a failure is C37); generated keys: C67 |
| C67 | proved | sizes up to 8192 bits; a search that has not ended within the step bounds of the model has no result |
| C68 | proved | order 0 and size 1 are excluded (C39) |
| C69 | partial | proved for objects made from strings; false in general: the Montgomery constant is copied although the number of limbs of the modulus changes (two counterexamples), which the public interface does not reach |
| C70 | proved | the specification (Aez/Spec.lean) is written from the description of AEZ v4; that the instruction aesenc computes the AES round is trusted |
| C71 | partial | OpenSSL 1.0 functions by their documentation; false for arrays not below the modulus (inversion, pools) and for pools of 128 keys and more, where the code ignores return values and returns uninitialised arrays, and for serialization (PKCS 8 text is written, PKCS 1 text is searched for) |
| C72 | proved | texts up to 34999 bytes; c72_export_false shows that a key accepted with a longer private exponent cannot be written, which is why the statement bounds it |
| C73 | partial | proved for all integers with limbs; false for an integer without limbs in radix 2 (null pointer, c73_write_null_false) |
| C74 | proved | that the selection looks the same for both conditions to an observer is C88 |
| C75 | proved | an inverted range inside an inner element is not refused by generate_constrained_subkeys (see C10) |
| C76 | partial | the results of eval and invert_mult are proved for every interleaving if the copy of a cache stores the pointer last; on new objects these calls race, and with another order of the copy a call uses a torn structure; invert races always and returns wrong results without error (the locks are not compiled); sequential consistency; the first inversion, which draws the blinding values, is left out |
| C77 | partial | proved without memory locking, for calls that do not overlap, and that there are no wrong values; with memory locking (the default) overlapping calls can end the process, throw "Memory is locked", or succeed and leave the key readable; sequential consistency |
| C78 | partial | proved for all listed functions on keys with a value, and for refused heights, null pointers and throwing callbacks; Prp(Key&&), derive_key and derive_keys of a moved-from object lose a buffer for ever, and derive_keys(Key&&, 0) does not take the key; std::bad_alloc and failing mprotect are left out |
| C79 | proved | the ARM branch uses _mm_set1_epi32, which only x86 has (aez.c 648-651); it is read as the zero block. Unaligned vector accesses are taken as allowed |
| C80 | proved | the effects of the ten instructions that the assembly uses are in the trusted base (ModelKernel.step); the clobber list lacks "memory" (finding 12), which is not modelled |
| C81 | partial | the version on half words shifts by 64 bits for divisors from 2^63 on (undefined); right for every value of that shift, and not reached from mbedtls_mpi_div_mpi |
| C82 | proved | counts over all sequences of strings of random bytes; the source does not fail; for numbers just above a power of two the general bound of c82_composite can be useless, because the bases are shifted to the length of the number |
| C83 | partial | proved except: after a start in which setting the curve parameters failed, later starts return without parameters; a start while OpenSSL holds a lock, or in which the allocation of the mutexes fails, breaks the locks; with RELIC built as README.md says only the thread that called init_crypto_lib can use pairings, and no sequence of stops stops two threads |
| C84 | partial | proved except: encryption of 32 bytes and more needs readable bytes behind the message (undefined without them: c84_overread), the number of bytes must not wrap around (c84_wrap), and ciphertexts as long as the authentication bytes are compared the wrong way (c84_empty, c84_forgery). For ARMv8 by c79_aead_encrypt and c79_aead_decrypt |
| C85 | partial | proved except: memory is lost when an exception leaves a constructor or a member function of the permutations, and when mpi_miller_rabin gives up; PEM buffers are not erased; assignment of pools of different sizes and pools of size 1 are outside the clients because they are undefined (witnesses proved). Objects have nested lifetimes; index bounds inside blocks are the subject of the models of Bignum and Io |
| C86 | partial | proved for all histories in which no call stops between two stores to the blinding values; false otherwise: later calls return wrong messages without an error, by a factor that is given exactly (c86_sequence), for a concrete key for ever (c86_forever_false), and 0 when the first call failed early (c86_half_drawn) |
| C87 | proved | AES-NI branch; observer of branches and addresses; instructions without memory operands are assumed to take time independent of data; the locking of the key memory is not part of the trace; the traced functions have the results of the model of C84 (c87_refines) and of C14 (c87_prp_refines); that the hypothesis on acceptance is needed is c87_rejection_visible |
| C88 | partial | proved for the conditional operations; false for exponentiation: the calls with their table entries determine the exponent exactly (c88_exponent), and with every valid key and all random numbers the blinded exponent of one inversion gives the factor P or an inverse exponent (c88_inversion_reveals); the carries of mpi_mul_hlp show as well (c88_carry) |
| C89 | proved | exact averages over uniform keys; ranges and leaves are chosen in advance; the tests of pairs that an attack is turned into are given explicitly (PairTest); running times are not modelled |
| C90 | proved | exact averages over uniform keys and salts; the key derivation and the authenticated encryption are parameters with contracts; the attacks on one key that an attack is turned into are given explicitly (Derived); running times are not modelled |
| C91 | proved | exact averages over uniform keys and random bytes; the hash function and the key stream are parameters; the advantages are those of the explicit worlds sim and mid, in which the two PRFs and the key stream are only called; a blob of RCPrf<n> counts as returned for ConstrainedRCPrf<n>, whose header is the same (C28); running times are not modelled |
| C92 | partial | proved for messages and pseudorandom scalars; for random scalars the code violates the property: exact distance proved, more than 11 % for the configured curve (c92_random_false); bn_rand is taken to give uniform bits, the order of the curve BN_P254 is taken from RELIC |
| C93 | partial | proved up to 16384 bytes of output; beyond, and for one key with two output lengths, the code violates the property (counterexamples c93_long_false, c93_sizes_false); the hash function is a parameter; HMAC with a random hash function is the subject of C102 |
| C94 | proved | exact averages over uniform keys; the ranges are fixed beforehand, keys and values are fetched adaptively; the tests of pairs that an attack is turned into are given explicitly (BoundsAll); running times are not modelled |
| C95 | proved | the tag is fixed beforehand; exact averages; the pairing enters through its laws (Grp.Ok) and the advantage of the given solvers; the scalar of encryptions is drawn from any number of values (the code draws it non-uniformly, see C92); c95_reuse_false shows what happens when the caller reuses the number of a puncture |
| C96 | partial | proved for programs without negative numbers, byte strings that reach the order and hashes equal to it, and for remainders and group elements in general; the code violates the rest (counterexamples proved). The functions of RELIC are modelled by the numbers that they compute, bn_mod, bn_gcd_ext and bn_mxp by contracts; capacity of numbers and negative shifts are not modelled |
| C97 | partial | reading back, exact condition for undefined reads and separation of scalars proved; the code violates the rest (counterexamples proved). That bn_size_str counts the zero byte is taken from RELIC |
| C98 | proved | the hash function is a uniformly random table (random oracle); exact averages; running times are not modelled, the algorithm for logarithms is given explicitly and needs the preimages of points under from_uniform (Inverse); c98_multiples_false shows why multiplicities count modulo the order only |
| C99 | partial | round trips, exact acceptance and safety proved; the parser is laxer than DER and leaves the node of the caller untouched for an empty sequence (counterexamples proved). A null pointer as source of a copy of length 0 is not modelled |

## Where the code and the properties disagree

Each of these is proved as a theorem unless marked "note" (seen while reading; outside the modelled part).

1. RC-PRF: indices from 2^(h-1) on alias other leaves instead of being rejected; heights 1 and 64 are undefined; `eval_range` of the full key outside
   the tree; `ConstrainedRCPrf::constrain` accepts min > max; elements that are not aligned to their height are accepted; heights from 66 on wrap
   in the size computation; an empty constrained key does not round-trip. Note: the number of elements in a serialized key drives an allocation of
   up to 32 GB.
2. PRG: the static `derive(key, 0, string)` throws for length 0; the static `derive_keys` with `n_keys = 0` does not consume its key. Note: the
   string overload leaks its `new[]` buffer if the inner call throws.
3. PRF: the 8-bit block counter repeats after 16384 bytes; the 16-bit position never ends for NBYTES > 65472.
4. HMAC: keys longer than the hash block are truncated or overflow a buffer.
5. Key: a callback constructor whose callback throws leaks its buffer; without memory locking `data()` of an empty key is null. Note: `Key()` is
   not random without `ENABLE_MEMORY_LOCK`.
6. Protection at rest: `Prp::encrypt` leaves its key readable; `Prg::derive` into a null buffer leaves it unlocked. A key object shared by two
   threads faults or throws.
7. Wrapper: `RCPrf` and `ConstrainedRCPrf` have the same type byte; confusion is possible exactly for NBYTES = 11. Refusals leak the decrypted
   buffer.
8. `Cipher::deserialize` adds to the byte count instead of setting it; in-place encryption loses the message.
9. TDP: a pool of size 1 and `eval_pool` of order 0 are undefined; pools assume the exponent 65537; pool sizes from 128 on are rejected for 2048-bit
   moduli; key sizes other than 2048 bits are not rejected and over-read or overflow; `invert` rejects arguments ≥ N while `eval` reduces and
   `invert_mult` does not; `invert_mult(string)` over-reads short strings; `TdpMultPoolImpl::operator=` forgets the base key; after a failure of the
   random source during blinding the next `invert` returns 0. Note: the pool constructor leaks `keys_` if it throws.
10. Puncturable encryption: incremental puncturing on the reserved tag only fails an assertion; points at infinity cannot be serialized; a hash
    collision throws `logic_error`. Notes: `hashToZR` leaves the value `order` unreduced; `hashToG2` uses the prefix of `hashToG1` (unused); an empty
    key "decrypts" successfully to a wrong message; a wrong number of shares gives a wrong message without an error.
11. AEZ: notes: encryption with `abytes > 0` over-reads its source (finding 24); the ARM branch uses an x86 intrinsic; the string overloads of `Prp` leak
    their buffer if the inner call throws.
12. bignum: `gcd(A, 0)` is 0; `div_mpi` with the quotient over the dividend is wrong; `mod_int` is wrong for divisors above 2^32 and dereferences null
    modulo 2 for an integer without limbs; `exp_mod` with a negative base may return N, and dereferences null for a base without limbs; `shift_l`
    wraps for counts near 2^64; `write_binary` drops the sign; `write_string` in radix 2
    dereferences null for an integer without limbs (`c73_write_null_false`). Notes: "-" and "" are read as zero, the former with a negative sign; `mod_mpi` with the result over the modulus does not end; the x86-64 `MULADDC`
    assembly lacks a "memory" clobber.
13. I/O: `asn1_write_mpi` of 0 as the first element reads one byte past the buffer; `asn1_write_int` truncates from 256 on; keys with a large private
    exponent can be imported but not exported. Notes: `pk_parse_key` returns 0 if `mbedtls_pk_setup` fails at the end; trailing data after the outer
    SEQUENCE is ignored; `zeroize_rsa` does not erase `RP`; the space counter of base64 is 32 bits wide; PEM import from a `std::string` stops at the
    first NUL.
14. Primality: the base of a Miller–Rabin round is shifted down to the length of n−1, so its highest bit is set in practice whenever the length is not
    a multiple of 64; primes 2^m+1 such as 65537 are then rejected always (`c64_prime_accepted_false`). A generator that always gives 2 makes
    1093² a prime (`c64_accepted_prime_false`). Notes: the first draw of each round, its shift and `|= 3` have no effect on the result but use up
    random bytes; when 31 bases in a row are useless a 32nd is drawn and discarded, and the function returns without freeing its integers.
15. Prime generation: the result may be longer than asked for (`c65_bits_false`); with `dh_flag` the value 1, no error code, is returned when a small
    prime comes up (`c65_one`).
16. RSA contexts: `mbedtls_rsa_copy` copies the Montgomery constants, which depend on the number of allocated limbs of the moduli, but not the leading
    zero limbs of the moduli, so that the copy of a used context evaluates wrongly (`c69_copy_false`); so does a context assigned over one with a longer
    modulus (`c69_assign_false`). Contexts parsed from strings have no such limbs, and neither generated contexts nor the assignment operator are copied
    by the interface, so that this is not reached (C66, C68, C69). Notes: `mbedtls_rsa_gen_key` on a used context would leave the constants of the old
    key; it fails if two accepted numbers have a common factor; the constructor of a pool and `rsa_io.c` ignore return codes of copies and products;
    `rsa_private` erases `DP_blind` twice and `DQ_blind` not; `invert_mult` does not free `y` on one error path; evaluation with a modulus that was never
    set dereferences null.

17. OpenSSL backend (not the default): `invert(array)` and `eval_pool` ignore that `RSA_private_decrypt` and `RSA_public_encrypt` failed and return arrays
    that were never initialised: for inputs not below the modulus (`c71_invert_array_false`, `c71_pool_large_false`) and for pools with 128 keys and more
    (`c71_pool_size_false`), whose size is accepted; pools of size 1 and order 0 as in 9; `private_key()` writes the PKCS 8 form, which
    `TdpInverse::deserialize` cannot find the end of (`c71_serialize_false`). Notes: the assignment operator of pools does not assign the base key; reading
    a private key that is no RSA key leaks it.

18. Threads: `rsa_key_` is `mutable`, and the locks around its accesses are compiled only if `MBEDTLS_THREADING_C` is defined, which it is not. The first
    evaluations (and `invert_mult`) on an object race on the Montgomery caches (`c76_first_false`), harmlessly only if the compiler copies the pointer of
    the structure last (`c76_results`, `c76_torn_false`); inversions race always (`c76_invert_race`), and when another inversion squares the blinding
    values in between, the result is the inverse times the square of the unblinding value, without an error (`c76_invert_false`, `c76_wrong_false`).
    `&rsa_key_->mutex` (tdp_impl_mbedtls.cpp 205) would not compile if threading were switched on.

19. Threads that share a key: `is_locked_` is a plain `mutable bool` (key.hpp 409), and memory locking is on by default. Besides faults and spurious
    exceptions (6, here for every pair of methods: `c77_fault_false`, `c77_locked_false`), two overlapping calls can both succeed and leave the content
    readable while the flag says that it is locked (`c77_exposed_false`): one call changes the flag after the other has made the content readable.
20. Keys in constructors and derivations (C78): `derive_key` of a moved-from `Prg`, `derive_key(Key&&, …)` and `Prp(Key&&)` with a moved-from key, and
    `derive_keys` of a moved-from `Prg` throw between the allocation of a buffer and the point where an object owns it: the buffer is never released
    (it contains no key). `derive_keys(Key&&, 0, …)` returns without taking the key. `RCPrf(Key&&, height)` and inner elements refuse a height only after
    taking the key, so that a refused key cannot be used again. `Prg` and `Cipher` accept empty keys, `HMac`, `Prf` and `Wrapper` do not.

21. The branch of `aez.c` for ARMv8: it cannot be compiled, because lines 648, 650 and 651 use `_mm_set1_epi32`; with the zero block in its place it
    computes the same function (C79). `sll4` at line 743 lacks the `bswap16` that its other uses have; this does no harm only because the low halves of the
    bytes of `mask_10` are zero (`c79_masks`, `c79_sll4_differs`). `Prp::is_available` asks for NEON on ARM, which does not imply the AES instructions.

22. `mbedtls_int_div_int` without 128-bit integers: `u0 >> ( biL - s )` with `s = 0` (line 1215) is a shift by 64 bits for divisors from 2^63 on
    (`c81_shift_false`); its result is masked away (`c81_word`), and `mbedtls_mpi_div_mpi` normalises to 63 bits, so that it is not reached
    (`c81_div`). On aarch64 with gcc or clang `bignum.h` chooses 32-bit limbs, which are not modelled.

23. `init_crypto_lib` and `cleanup_crypto_lib` (C83): a second start loses the RELIC handle and the mutexes of the first, and as the new handle does not
    own RELIC no later stop cleans it (`c83_count`, `c83_pairing`). If `pc_param_set_any` fails, the constructor throws but leaves the context, and the
    next start takes it for someone else's and returns (`c83_unset_witness`, `c83_unset_forever`). With `MULTI=PTHREAD` (README.md 51) a thread that did not
    call `init_crypto_lib` gets an exception from every pairing object (`c83_pairing`); if it calls it, finding one applies, and two threads cannot both
    be stopped (`c83_two_threads`). The result of `init_locks` is ignored: a failed allocation on a second start leaves callbacks that
    dereference null (`c83_null_witness`); a start or stop while a lock is held breaks mutual exclusion or destroys a held mutex
    (`c83_reinit_witness`, `c83_stop_witness`).
24. `aez_encrypt` with authentication bytes (C84; not called so by the library) loads the last block of the padded string from the source: with 32 bytes
    and more it reads as many bytes behind the message as there are authentication bytes (`c84_overread`), and `bytes + abytes` may wrap around
    (`c84_wrap`).
25. `aez_decrypt` compares the tag of the empty message with `is_zero(vandnot(t, claimed))`, that is `claimed & ~t = 0`, instead of equality: zeros are accepted
    under every key and nonce (`c84_forgery`, `c84_forgery_concrete`; what exactly is accepted: `c84_empty`). AEZ's reference rejects them.
26. Memory is lost on errors (C85). `mpi_miller_rabin` returns without releasing its five integers after 31 bases out of range (`c85_isPrime_loses`). The
    member functions of `TdpImpl_mbedTLS` and `TdpInverseImpl_mbedTLS` throw after `mbedtls_mpi_init` without releasing the temporaries when an allocation
    fails (`c85_eval_loses`; `invert_mult` so loses its result unerased, `c85_invertMult_loses`), and so do the constructors with the members, for the inverse
    also `p - 1` and `q - 1` (`c85_ctor_loses`) and for the pool `keys_`.
27. The buffers with the encoded key in `pem.c` (114, 126, 157, 181) are released unerased (`c85_pem_residue`); `mbedtls_rsa_private` erases `DP_blind` twice
    and `DQ_blind` not before the release (rsa.c), `zeroize_rsa` leaves out `RP`: both without effect, as `mbedtls_mpi_free` erases.
28. `TdpMultPoolImpl_mbedTLS::operator=` between pools of different sizes stores the new count and deletes the old array before it allocates: if that
    fails, the destructor uses the deleted array (`c85_pool_assign_ub`). `TdpMultPool::operator=` does not use it.
29. `rsa_prepare_blinding` stores `Vf` before `Vi` is known, and updates `Vi` before `Vf` (C86). If an allocation fails in between, `invert` throws, but the
    values stay; later calls take them for valid and return wrong messages without an error: 0 if the first call failed at the common divisor
    (`c86_half_drawn`), else a message that is off by a power of `Vi` (`c86_half_update`, `c86_sequence`), for the example key in all later calls
    (`c86_forever_false`). Releasing `Vf` on failure would be a remedy.
30. `mbedtls_mpi_exp_mod` uses the exponent for branches and as an index into its table (C88): the sequence of calls determines the exponent
    (`c88_exponent`). The blinding of the exponent in `mbedtls_rsa_private` adds a multiple of `P - 1`; one observed inversion still gives the key
    (`c88_inversion_reveals`). Observation needs a neighbour on the same machine; the source does not claim protection against one.
31. `PairingGroup::randomZR` draws as many bits as the order has and reduces (C92), without the extra bits that `pseudoRandomZR` and the trapdoor permutation
    use: scalars below `2^254 - r` are twice as likely as the others; the distance from uniform is more than 11 % on the configured curve
    (`c92_random_false`). Drawing `bn_bits + 64` bits, or rejecting, would be a remedy.
32. `Prf<n1>` and `Prf<n2>` with the same key are related (C93, `c93_sizes_false`): the output length is not an input of HMAC, and the block counter is an
    ordinary last byte of its input. Keys have to be used with one output length only.

33. `relic_api.cpp` 100-135: the difference and the product of scalars add the order only once to a negative result. With a negative `ZR(int)` the result can stay negative: it is no member, compares unequal to the same number, and its bytes are those of another number or are written outside of the buffer (C96: `c96_subtract_false`, `c96_multiply_false`).
34. `relic_api.cpp` 178, 218: a hash (or shifted number) equal to the order is not reduced (`RLC_GT` instead of not `RLC_LT`); dividing by it does not throw (C96: `c96_hash_false`).
35. `relic_api.cpp` 232-247: `operator&` does not remove leading zero digits and drops signs; equal scalars compare unequal, and a scalar of value zero is accepted as divisor (C96: `c96_and_false`).
36. `relic_api.cpp` 42-55: `ZR(INT_MIN)` negates the least `int` (C96: `c96_least_int_false`).
37. `relic_api.cpp` 201-211: a zero byte is printed after a scalar (C97: `c97_print_scalar_false`).
38. `relic_api.cpp` 380-382, 499-501, 642-644: printing a group element reads `data[i]` where `i` is a byte of `data` and not an index: undefined for points with large bytes, and wrong otherwise (C97: `c97_print_point_false`, `c97_print_target_false`).
39. `relic_api.cpp` 440-455: `hashToG2` uses the prefix of `hashToG1` (C97: `c97_hash_inputs_false`).
40. `set_hash.cpp` 122-127: `add_set` of an object to itself doubles all multiplicities, and these count modulo the group order only: 507 calls reach a set hash of that many copies of a string, which compares equal to an empty one (C98: `c98_multiples_false`).
41. `asn1parse.c` 241-289: `mbedtls_asn1_get_sequence_of` returns success for an empty sequence without touching `cur->buf` (C99: `c99_sequence_empty_false`); `mbedtls_asn1_get_bitstring` accepts unused bits of an empty bit string (`c99_bits_false`). Not called by the library.
42. `asn1write.c` 339-396: `mbedtls_asn1_store_named_data` keeps the length when a shorter value replaces a longer one; the entry then ends with the tail of the old value (C100: `c100_shorter_false`). Not called by the library.
43. `prg.hpp` 400-477: keys of different sizes derived with one `Prg`, and other output of it, are windows of one stream and overlap (C101: `c101_lengths_false`). The documentation does not say so; one object has to be used with one size.

44. Keys without memory or protection (C103): if the system refuses to protect the buffer of a new key, the constructor throws and the key stays in readable and
    writable memory that nobody owns (the destructor of an object whose constructor throws does not run), after the caller's buffer was wiped: the key is lost for its
    owner and not for somebody who reads the memory. Where `sodium_mprotect_*` is not implemented (`ENOSYS`) keys say that they are locked although they are readable.
    Not modelled but visible in the text: in `hmac.hpp` 177-249 the heap buffer (not yet filled with the key) leaks if `unlock` or `data` throws, and if the final `lock` throws the key stays unlocked.

45. Tokens of the trapdoor permutation (C104): `invert` is multiplicative, so that a client that inverts messages which others choose gives away the inverses of
    all their products (`c104_product_false`).  The code inverts whatever message it is handed; it never hashes or pads.

46. Blinding (C105): `rsa_prepare_blinding` squares the blinding values instead of drawing new ones, so that the operands of successive inversions satisfy
    `o2 * y1^2 = y2 * o1^2` modulo `N` (`c105_relation_false`) and have, from the second call on, the Jacobi symbol of the message (`c105_jacobi_false`).  The first
    value is drawn with `len - 1` bytes (rsa.c 343) and not below `N`: fewer than one of 128 invertible numbers can occur (`c105_short_false`).

47. `mbedtls_base64_encode` and `mbedtls_base64_decode` use the data as indices into tables and for branches (C107): the addresses seen while a private key is
    exported or imported determine the key (`c107_export`, `c107_import`).  Later versions of mbed TLS use constant-time look-ups.

48. `derive_leaf` of the RC-PRF is not constant-time in the leaf (C108): the test `key_offset > 0` in `Prg::derive_key` and the alignment test in
    `prg_derivation` take different branches for the left and the right child, so that an observer of branches learns the leaf (nothing of the key). The library
    does not promise more, but a client that hides its inputs must not rely on it.

49. Some functions erase their temporary buffers, others with the same kind of content do not (C109): `Cipher::decrypt` of a string leaves the
    plaintext in a freed vector (the encryption erases the ciphertext), `Prp` leaves the result, `generate_array` leaves the output of the PRF from which
    the token follows (`generate` erases the token), `pseudoRandomZR` the output of the PRF from which the master secret follows, `Gmppke::encrypt` and
    `decrypt_unchecked` the mask, `generate_leaf_from_parent` the value of the leaf, `Hash` the digest, `random_string` the string; `Prf::prf` of an
    object without a key leaks its block with the message.
50. `aez.c` 356-367, 478-489: `pass_one` and `pass_two` double the offset every eight pairs without end. The 125th doubling brings it back: pair 1001 has the offset of pair 40, for every key (2^128 = 2^7 + 7 in the field). Exchanging the two parts of a string of 32064 bytes or more exchanges them in the encryption, so that two questions tell `Prp` from a random permutation (C113: `c113_exchange`, `c113_attack`). `Prp` does not limit the length.
51. `prp.cpp` 124-141, 150-166: the functions on `uint32_t` and `uint64_t` use the permutations of the strings of four and eight bytes, without a tweak: `encrypt(7u)` and `encrypt("\x07\0\0\0"s)` give the same four bytes. A protocol that encrypts counters and labels of these sizes with one `Prp` does not keep them apart (C114: `c114_bytes`, `c114_apart_false`); `prp.hpp` does not say so.
52. `aez.c` 774-779, 810-814: the bit that makes the parity of the permutation depend on the key is flipped for strings of less than 16 bytes only. For 16 bytes or more the permutation is even whatever the key (C116: `c116_even`). This is what AEZ specifies; it takes nearly all of the 256^16 answers to notice.
53. `base64.c` 155-226: the decoder accepts texts that no encoder writes, and reports success: bits that are not used may be anything (`QQ==` and `QR==` are the same byte), and an incomplete last group is dropped silently (`QUJDREU` gives three bytes, `QUJDREU=` five). So different PEM files hold the same key, and a truncated base64 text is not recognised as such. With 2^32 spaces inside a line (4 GB) the counter of spaces wraps and the text is accepted (C119: `c119_value`, `c119_canonical`, `c119_spaces_false`).
54. `asn1parse.c` 54-186, `pkparse.c`: the parsers accept much more than DER: bytes behind the outer sequence, lengths in the long form, zeros in front of numbers, negative numbers (read as if they were positive), attributes behind a PKCS#8 key (C120: `c120_trailing`, `c120_zeros`). Two byte strings that are the same key need not be equal; clients must compare keys, not their encodings.
55. `pem.c` 73-98: the footer is searched from the start of the text, not from the header. A text in which a footer stands before the header is refused as having no header, although a complete key follows; text before the header and behind the footer is ignored (C121: the examples). Everything behind the first zero byte is ignored too, even though the length that was passed includes it.
56. `rsa.c` 193-250: the check of imported private keys compares the products and inverses, but does not test whether P and Q are primes. A text with composite factors is accepted; if the modulus is divisible by a square, two messages have the same value under `eval`, and `invert` cannot recover both (C123: `c123_false`). A client that takes private keys from others must not rely on the constructor for this.
57. `tdp.cpp` 296-329: `deserialize` reads the line feed behind the end marker if there is one. If a key was stored without its line feed, and the data behind it begin with the byte 0x0a, one byte of these data counts as read (C124: `c124_exact`). Keys in PKCS#8 armour, which the constructor accepts, have another end marker and are not found.

## Mutation tests

`seeded/LOG.jsonl` has one line per edit of a definition (dropped checks, off-by-one errors, wrong operands, missing steps): the edit, the
theorems and lemmas that no longer build, and whether the edit survived. Edits were made in a copy of the project. Survivors carry a note; where a
survivor showed a weak theorem the theorem was strengthened and the edit was repeated (`tightened`).
