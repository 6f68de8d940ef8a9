/-
`src/tdp_impl/tdp_impl_mbedtls.cpp` as programs on the storage of big integers.

`throw` is `fail` outside any clean-up: the automatic objects of type `mbedtls_mpi` have no destructor, so they are not
released.  The variables of an object:
* `TdpImpl_mbedTLS` at `k`: the context `rsa_key_` at `k`;
* `TdpInverseImpl_mbedTLS` at `k`: `rsa_key_` at `k`, `phi_ = k + 13`, `p_1_ = k + 14`, `q_1_ = k + 15`;
* `TdpMultPoolImpl_mbedTLS` with `n = keys_count_` at `k`: `rsa_key_` at `k`, the block of `keys_` is held by `k + 13`,
  the context `keys_[i]` is at `k + 14 + 13 i`.
Objects are automatic: an object ends when the block in which it is defined ends, also by an exception.
-/
import Verif.Heap.Rsa
import Verif.Heap.Objects

namespace Verif.Heap

/-- `zeroize_rsa`, `src/tdp_impl/tdp_impl_mbedtls.cpp` 48-63.  `RP` (`k + 9`) is not in the list. -/
def zeroizeRsa (k : Nat) : Cmd :=
  seqL ([k, k + 1, k + 2, k + 3, k + 4, k + 5, k + 6, k + 7, k + 8, k + 10, k + 11, k + 12].map fun x => .ign (lset x))

/-! ### Destructors -/

/-- `~TdpImpl_mbedTLS`, 113-117; also what is done with each of `keys_`, 774-777 and 803-806. -/
def tdpDtor (k : Nat) : Cmd := zeroizeRsa k ;; rsaFree k

/-- `~TdpInverseImpl_mbedTLS`, 439-448, and the destructor of the base class. -/
def invDtor (k : Nat) : Cmd :=
  .ign (lset (k + 14)) ;; .ign (lset (k + 15)) ;; .ign (lset (k + 13)) ;;
  freeAll [k + 14, k + 15, k + 13] ;; tdpDtor k

/-- The context `keys_[i]`. -/
def keyAt (k i : Nat) : Nat := k + 14 + 13 * i

/-- `~TdpMultPoolImpl_mbedTLS`, 801-808, and the destructor of the base class. -/
def poolDtor (n k : Nat) : Cmd :=
  seqL ((List.range n).map fun i => tdpDtor (keyAt k i)) ;; free (k + 13) ;; tdpDtor k

/-! ### Constructors -/

/-- `TdpImpl_mbedTLS(const std::string&)`, 71-90. -/
def tdpParse (k : Nat) : Cmd := rsaParsePublicKey k ;; checkPubkey k

/-- `TdpImpl_mbedTLS(const TdpImpl_mbedTLS&)`, 92-106. -/
def tdpCopy (src k : Nat) : Cmd := rsaCopy k src ;; checkPubkey k

/-- The rest of both constructors of `TdpInverseImpl_mbedTLS`, 372-392 and 416-436. -/
def invRest (k : Nat) : Cmd :=
  checkPubkey k ;; subInt (k + 14) (k + 3) ;; subInt (k + 15) (k + 4) ;;
  mulMpi (k + 13) (some (k + 14)) (some (k + 15))

/-- `TdpInverseImpl_mbedTLS()`, 354-393, after the initialisation. -/
def invGen (giveUp : Bool) (k : Nat) : Cmd := genKey giveUp k ;; invRest k

/-- `TdpInverseImpl_mbedTLS(const std::string&)`, 395-437, after the initialisation. -/
def invParse (k : Nat) : Cmd := rsaParseKey k ;; invRest k

/-- One key in the constructor of a pool, 726-731 and 737-742: `keys_[i]` from `prev`, with `E` from the key `e`.  The
results of `mbedtls_rsa_copy` and `mbedtls_mpi_mul_int` are ignored. -/
def poolKey (prev e key : Nat) : Cmd :=
  .ign (rsaCopy key prev) ;; .ign (mulInt (key + 1) (e + 1)) ;; checkPubkey key

/-- The indices in the loop of the constructor: 0 outside the loop (726-731), then 1, …, `n - 1` (736). -/
def poolIdx (n : Nat) : List Nat := 0 :: List.range' 1 (n - 1)

/-- `TdpMultPoolImpl_mbedTLS(const std::string&, uint8_t)`, 715-748, after the constructor of the base class. -/
def poolBody (n k : Nat) : Cmd :=
  mayFail ;; grow (k + 13) ;;
  seqL ((poolIdx n).map fun i => rsaInit (keyAt k i) ;;
    poolKey (if i = 0 then k else keyAt k (i - 1)) (if i = 0 then keyAt k 0 else keyAt k (i - 1)) (keyAt k i))

/-- The loop of the copy constructor (756-767) and of the assignment (786-796) of a pool. -/
def poolKeys (n src k : Nat) : Cmd :=
  seqL ((List.range n).map fun i => rsaInit (keyAt k i) ;; .ign (rsaCopy (keyAt k i) (keyAt src i)) ;; checkPubkey (keyAt k i))

/-- `TdpMultPoolImpl_mbedTLS(const TdpMultPoolImpl_mbedTLS&)`, 750-768, after the constructor of the base class. -/
def poolCopy (n src k : Nat) : Cmd := grow (k + 13) ;; poolKeys n src k

/-! ### Objects -/

/-- A block with an object of type `TdpImpl_mbedTLS`. -/
def tdpScope (ctor : Nat → Cmd) (use : Nat → Cmd) : Cmd :=
  .locals 13 fun k => object (rsaInit k ;; ctor k) .skip (use k) (tdpDtor k) .skip

/-- The members of a `TdpInverseImpl_mbedTLS` that the class adds. -/
def invOwn (k : Nat) : List Nat := [k + 13, k + 14, k + 15]

/-- A block with an object of type `TdpInverseImpl_mbedTLS`: the default constructor of the base class (67-70), the
initialisation (359-362, 400-403: of `rsa_key_` for the second time; it cannot throw), the rest of the constructor. -/
def invScope (ctor : Nat → Cmd) (use : Nat → Cmd) : Cmd :=
  .locals 16 fun k => object (rsaInit k ;; rsaInit k) (initAll (invOwn k) ;; ctor k) (use k) (invDtor k) (tdpDtor k)

/-- A block with an object of type `TdpMultPoolImpl_mbedTLS`. -/
def poolScope (n : Nat) (base ctor : Nat → Cmd) (use : Nat → Cmd) : Cmd :=
  .locals (14 + 13 * n) fun k =>
    object (rsaInit k ;; base k) (initAll [k + 13] ;; ctor k) (use k) (poolDtor n k) (tdpDtor k)

/-! ### Operations -/

/-- `TdpImpl_mbedTLS::operator=`, 119-126; the result of `mbedtls_rsa_copy` is ignored. -/
def tdpAssign (d k : Nat) : Cmd := if d = k then .skip else .ign (rsaCopy d k)

/-- `Tdp::operator=`, `src/tdp.cpp` 102-109: a copy is made by `duplicate` (349-352), the pointers are exchanged
(here: the contents of the structures) and the old object is destroyed. -/
def tdpReset (d src : Nat) : Cmd :=
  .locals 13 fun k => object (rsaInit k ;; tdpCopy src k) .skip
    (seqL ((List.range 13).map fun i => swap (d + i) (k + i))) (tdpDtor k) .skip

/-- The end of `eval`, `sample_array`, `generate_array` and `eval_pool`: write the result, erase and release `x`. -/
def tdpOut (x : Nat) : Cmd := .ign (writeBinary x) ;; .ign (lset x) ;; free x

/-- `TdpImpl_mbedTLS::eval`, 170-229. -/
def tdpEval (k : Nat) : Cmd :=
  mayFail ;; .locals 1 fun x => initAll [x] ;; readBinary x ;; modMpi x x k ;; expMod x x (k + 1) k (some (k + 8)) ;; tdpOut x

/-- `TdpImpl_mbedTLS::sample_array`, 244-274. -/
def tdpSample (k : Nat) : Cmd :=
  .locals 1 fun x => initAll [x] ;; fillRandom x ;; modMpi x x k ;; tdpOut x

/-- `TdpImpl_mbedTLS::generate_array`, 289-323. -/
def tdpGenerate (k : Nat) : Cmd :=
  .locals 1 fun x => initAll [x] ;; readBinary x ;; modMpi x x k ;; tdpOut x

/-- `TdpInverseImpl_mbedTLS::invert`, 470-513. -/
def tdpInvert (k : Nat) : Cmd := mayFail ;; rsaPrivate true k

/-- `insecure_mod_exp`, 518-549. -/
def insecureModExp (x a n : Nat) : Cmd :=
  .locals 1 fun b => initAll [b] ;;
    cleanup
      (lset x ;; copy b a ;; modMpi b b n ;;
       .loop (opt (mulMpi x (some x) (some b) ;; modMpi x x n) ;; mulMpi b (some b) (some b) ;; modMpi b b n))
      (freeAll [b])

/-- `TdpInverseImpl_mbedTLS::invert_mult`, 619-639: from the first exponentiation to the last addition.
`x = s`, `mpi_order = s + 1`, `d_p = s + 2`, `d_q = s + 3`, `y_p = s + 4`, `y_q = s + 5`, `y = s + 6`. -/
def invertMultMain (k s : Nat) : Cmd :=
  insecureModExp (s + 2) (k + 5) (k + 14) ;; insecureModExp (s + 3) (k + 6) (k + 15) ;;
  expMod (s + 4) s (s + 2) (k + 3) (some (k + 9)) ;; expMod (s + 5) s (s + 3) (k + 4) (some (k + 10)) ;;
  subMpi (s + 6) (some (s + 4)) (some (s + 5)) ;; mulMpi (s + 4) (some (s + 6)) (some (k + 7)) ;;
  modMpi (s + 6) (s + 4) (k + 3) ;; mulMpi (s + 4) (some (s + 6)) (some (k + 4)) ;;
  addMpi (s + 6) (some (s + 5)) (some (s + 4))

/-- `TdpInverseImpl_mbedTLS::invert_mult`, 674-686: what is erased and released at the label `cleanup`. -/
def invertMultClean (s : Nat) : Cmd :=
  .ign (lset s) ;; .ign (lset (s + 2)) ;; .ign (lset (s + 3)) ;; .ign (lset (s + 4)) ;; .ign (lset (s + 5)) ;;
  .ign (lset (s + 1)) ;; freeAll [s, s + 2, s + 3, s + 4, s + 5, s + 1]

/-- `TdpInverseImpl_mbedTLS::invert_mult`, 551-697. -/
def tdpInvertMult (k : Nat) : Cmd :=
  .alt .skip (mayFail ;; .locals 7 fun s => initAll [s, s + 1, s + 2, s + 3, s + 4, s + 5, s + 6] ;;
    readBinary s ;; .ign (lset (s + 1)) ;;
    .onEnd (invertMultMain k s)
      (writeBinary (s + 6) ;; invertMultClean s ;; .ign (lset (s + 6)) ;; free (s + 6))
      (invertMultClean s))

/-- `TdpMultPoolImpl_mbedTLS::operator=`, 770-799, when both pools have the same number of keys. -/
def poolAssign (n d k : Nat) : Cmd :=
  if d = k then .skip else seqL ((List.range n).map fun i => tdpDtor (keyAt d i)) ;; poolKeys n k d

/-- `TdpMultPoolImpl_mbedTLS::operator=`, 770-799, from a pool with `n` keys to a pool with `m ≠ n` keys.  After
`delete[] keys_` (781) the contexts are not initialised. -/
def poolRealloc (n m d k : Nat) : Cmd :=
  seqL ((List.range n).map fun i => tdpDtor (keyAt d i)) ;; free (d + 13) ;;
  seqL (((List.range n).flatMap fun i => ctx (keyAt d i)).map fun x => .prim (.undef x)) ;;
  grow (d + 13) ;; poolKeys m k d

/-- `TdpMultPoolImpl_mbedTLS::eval_pool`, 810-886, with the key `key`. -/
def evalPool (key : Nat) : Cmd :=
  mayFail ;; mayFail ;; .locals 1 fun x => initAll [x] ;; readBinary x ;; expMod x x (key + 1) key (some (key + 8)) ;; tdpOut x

end Verif.Heap
