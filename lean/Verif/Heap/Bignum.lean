/-
The functions of `src/mbedtls/bignum.c` as programs on the storage of big integers.

An operand that is not written is `Option Nat`: `none` is an integer on the stack (`_B` in
`mbedtls_mpi_add_int` and its like, `U` in `mpi_montred`), which is never released.  Tests `X == A` of the
addresses of operands are decided by the program; `Q`, `R` of the division are `none` for `NULL`.
Reading or writing limbs is `get` / `setW`: the block must be live and as long as the number of limbs says;
that the indices are below that number is not part of this model (it is for the models of `Verif.Bignum`).
-/
import Verif.Heap.Lang

namespace Verif.Heap

/-- The limbs of an operand are read. -/
def getO : Option Nat → Cmd
  | none => .skip
  | some y => get y

/-- `do c while( .. )` -/
def loop1 (c : Cmd) : Cmd := c ;; .loop c

/-- `mbedtls_mpi_copy`, `src/mbedtls/bignum.c` 182-211. -/
def copy (x y : Nat) : Cmd :=
  if x = y then .skip else .ifNull y (free x) (get y ;; grow x ;; get y ;; setW x)

def copyO (x : Nat) : Option Nat → Cmd
  | none => grow x ;; setW x
  | some y => copy x y

/-- `mbedtls_mpi_safe_cond_assign`, `src/mbedtls/bignum.c` 232-252. -/
def condAssign (x y : Nat) : Cmd := grow x ;; get y ;; get x ;; setW x

/-- `mbedtls_mpi_safe_cond_swap`, `src/mbedtls/bignum.c` 260-289. -/
def condSwap (x y : Nat) : Cmd :=
  if x = y then .skip else grow x ;; grow y ;; get x ;; get y ;; setW x ;; setW y

/-- `mbedtls_mpi_lset`, `src/mbedtls/bignum.c` 296-309. -/
def lset (x : Nat) : Cmd := grow x ;; setW x

/-- `mbedtls_mpi_get_bit`, `mbedtls_mpi_lsb`, `mbedtls_mpi_bitlen`, `mbedtls_mpi_size`,
`src/mbedtls/bignum.c` 314-320, 353-364, 386-401, 406-409. -/
def look (x : Nat) : Cmd := get x

/-- `mbedtls_mpi_set_bit`, `src/mbedtls/bignum.c` 325-348. -/
def setBit (x : Nat) : Cmd := .alt .fail (.alt .skip (opt (grow x) ;; get x ;; setW x))

/-- `mbedtls_mpi_read_binary`, `src/mbedtls/bignum.c` 609-627. -/
def readBinary (x : Nat) : Cmd := grow x ;; lset x ;; get x ;; setW x

/-- `mbedtls_mpi_write_binary`, `src/mbedtls/bignum.c` 632-647. -/
def writeBinary (x : Nat) : Cmd := get x ;; mayFail ;; get x

/-- `mbedtls_mpi_shift_l`, `src/mbedtls/bignum.c` 652-697. -/
def shiftL (x : Nat) : Cmd := get x ;; opt (grow x) ;; get x ;; setW x

/-- `mbedtls_mpi_shift_r`, `src/mbedtls/bignum.c` 702-740. -/
def shiftR (x : Nat) : Cmd := .alt (lset x) (get x ;; setW x)

/-- `mbedtls_mpi_cmp_abs`, `mbedtls_mpi_cmp_mpi`, `mbedtls_mpi_cmp_int`, `src/mbedtls/bignum.c` 745-819. -/
def cmp (a b : Option Nat) : Cmd := getO a ;; getO b

/-- `mbedtls_mpi_add_abs`, `src/mbedtls/bignum.c` 824-875, after the exchange of `A` and `B`. -/
def addAbs' (x : Nat) (a b : Option Nat) : Cmd :=
  (if a = some x then .skip else copyO x a) ;; getO b ;; grow x ;; getO b ;; get x ;; setW x ;;
    .loop (opt (grow x) ;; get x ;; setW x)

/-- `mbedtls_mpi_add_abs`, `src/mbedtls/bignum.c` 824-875. -/
def addAbs (x : Nat) (a b : Option Nat) : Cmd :=
  if b = some x then addAbs' x (some x) a else addAbs' x a b

/-- `mbedtls_mpi_sub_abs`, `src/mbedtls/bignum.c` 901-939. -/
def subAbs (x : Nat) (a b : Option Nat) : Cmd :=
  cmp a b ;; mayFail ;; .locals 1 fun t => initAll [t] ;;
    cleanup
      ((if b = some x then copy t x else .skip) ;;
       (if a = some x then .skip else copyO x a) ;;
       getO (if b = some x then some t else b) ;; get x ;; setW x)
      (freeAll [t])

/-- `mbedtls_mpi_add_mpi`, `src/mbedtls/bignum.c` 944-970. -/
def addMpi (x : Nat) (a b : Option Nat) : Cmd :=
  .alt (cmp a b ;; .alt (subAbs x a b) (subAbs x b a)) (addAbs x a b)

/-- `mbedtls_mpi_sub_mpi`, `src/mbedtls/bignum.c` 975-1001. -/
def subMpi (x : Nat) (a b : Option Nat) : Cmd :=
  .alt (cmp a b ;; .alt (subAbs x a b) (subAbs x b a)) (addAbs x a b)

/-- `mbedtls_mpi_add_int`, `src/mbedtls/bignum.c` 1006-1017. -/
def addInt (x a : Nat) : Cmd := addMpi x (some a) none

/-- `mbedtls_mpi_sub_int`, `src/mbedtls/bignum.c` 1022-1033. -/
def subInt (x a : Nat) : Cmd := subMpi x (some a) none

/-- `mbedtls_mpi_mul_mpi`, `src/mbedtls/bignum.c` 1113-1145. -/
def mulMpi (x : Nat) (a b : Option Nat) : Cmd :=
  .locals 2 fun s => initAll [s, s + 1] ;;
    cleanup
      ((if a = some x then copy s x else .skip) ;;
       (if b = some x then copy (s + 1) x else .skip) ;;
       getO (if a = some x then some s else a) ;; getO (if b = some x then some (s + 1) else b) ;;
       grow x ;; lset x ;;
       getO (if a = some x then some s else a) ;; getO (if b = some x then some (s + 1) else b) ;; get x ;; setW x)
      (freeAll [s + 1, s])

/-- `mbedtls_mpi_mul_int`, `src/mbedtls/bignum.c` 1150-1161. -/
def mulInt (x a : Nat) : Cmd := mulMpi x (some a) none

/-- `if( Q != NULL ) c` -/
def ifSome (q : Option Nat) (c : Nat → Cmd) : Cmd :=
  match q with
  | none => .skip
  | some x => c x

/-- `mbedtls_mpi_div_mpi`, `src/mbedtls/bignum.c` 1293-1358: from the copies of the operands to the clean-up. -/
def divMain (q r : Option Nat) (a : Nat) (b : Option Nat) (x y z t1 t2 : Nat) : Cmd :=
  copy x a ;; copyO y b ;; get a ;; grow z ;; lset z ;; grow t1 ;; grow t2 ;; look y ;;
  opt (shiftL x ;; shiftL y) ;; shiftL y ;;
  .loop (cmp (some x) (some y) ;; get z ;; setW z ;; subMpi x (some x) (some y)) ;;
  cmp (some x) (some y) ;; shiftR y ;;
  .loop (get x ;; get y ;; setW z ;;
    loop1 (setW z ;; lset t1 ;; get y ;; setW t1 ;; get z ;; mulInt t1 t1 ;; lset t2 ;; get x ;; setW t2 ;;
      cmp (some t1) (some t2)) ;;
    get z ;; mulInt t1 y ;; shiftL t1 ;; subMpi x (some x) (some t1) ;; get x ;;
    opt (copy t1 y ;; shiftL t1 ;; addMpi x (some x) (some t1) ;; get z ;; setW z)) ;;
  ifSome q (fun q => copy q z) ;;
  ifSome r (fun r => shiftR x ;; copy r x ;; get r)

/-- `mbedtls_mpi_div_mpi`, `src/mbedtls/bignum.c` 1262-1372. -/
def divMpi (q r : Option Nat) (a : Nat) (b : Option Nat) : Cmd :=
  .fn (getO b ;; .alt (.ret true) .skip ;; .locals 5 fun s => initAll [s, s + 1, s + 2, s + 3, s + 4] ;;
    cleanup
      ((cmp (some a) b ;; opt (ifSome q lset ;; ifSome r (fun r => copy r a) ;; .ret false)) ;;
       divMain q r a b s (s + 1) (s + 2) (s + 3) (s + 4))
      (freeAll [s, s + 1, s + 2, s + 3, s + 4]))

/-- `mbedtls_mpi_div_int`, `src/mbedtls/bignum.c` 1377-1388. -/
def divInt (q r : Option Nat) (a : Nat) : Cmd := divMpi q r a none

/-- `mbedtls_mpi_mod_mpi`, `src/mbedtls/bignum.c` 1393-1411. -/
def modMpi (r a b : Nat) : Cmd :=
  get b ;; mayFail ;; divMpi none (some r) a (some b) ;;
  .loop (get r ;; addMpi r (some r) (some b)) ;; get r ;;
  .loop (cmp (some r) (some b) ;; subMpi r (some r) (some b)) ;; cmp (some r) (some b)

/-- `mbedtls_mpi_mod_int`, `src/mbedtls/bignum.c` 1416-1468. -/
def modInt (a : Nat) : Cmd := mayFail ;; get a

/-- `mbedtls_mpi_read_string`, `src/mbedtls/bignum.c` 430-497. -/
def readString (x : Nat) : Cmd :=
  .fn (.alt (.ret true) .skip ;; .locals 1 fun t => initAll [t] ;;
    cleanup
      (.alt (.ret true) .skip ;;
       .alt
        (grow x ;; lset x ;; .loop (mayFail ;; get x ;; setW x))
        (lset x ;; .loop (mayFail ;; mulInt t x ;; .alt (addInt x t) (subInt x t))))
      (freeAll [t]))

/-- `mpi_write_hlp`, `src/mbedtls/bignum.c` 504-526; the recursion is a loop, as nothing is owned by the calls. -/
def writeHlp (x : Nat) : Cmd := loop1 (mayFail ;; modInt x ;; divInt (some x) none x ;; get x)

/-- `mbedtls_mpi_write_string`, `src/mbedtls/bignum.c` 531-602. -/
def writeString (x : Nat) : Cmd :=
  mayFail ;; look x ;; mayFail ;; .locals 1 fun t => initAll [t] ;;
    cleanup (.alt (get x) (copy t x ;; writeHlp t)) (freeAll [t])

/-- `mpi_montmul`, `src/mbedtls/bignum.c` 1490-1528; `b = none` is the operand of `mpi_montred`, 1533-1542. -/
def montmul (a : Nat) (b : Option Nat) (n t : Nat) : Cmd :=
  get t ;; get n ;; mayFail ;; setW t ;; getO b ;; get a ;; get n ;; get t ;; setW t ;; setW a ;;
    cmp (some a) (some n) ;; .alt (get a ;; setW a) (get t ;; setW t)

/-- `mbedtls_mpi_exp_mod`, `src/mbedtls/bignum.c` 1600-1606: `RR = R^2 mod N`. -/
def expRR (rr n : Nat) : Cmd := lset rr ;; get n ;; shiftL rr ;; modMpi rr rr n

/-- `mbedtls_mpi_exp_mod`, `src/mbedtls/bignum.c` 1577-1594: before `RR` is set.  `w` is the address of `W[0]`. -/
def expPre (x a n t ap w : Nat) (neg : Bool) : Cmd :=
  get n ;; grow x ;; grow (w + 1) ;; grow t ;; (if neg then copy ap a else .skip)

/-- `mbedtls_mpi_exp_mod`, `src/mbedtls/bignum.c` 1611-1733: after `RR` is set. -/
def expPost (x a e n rr t w ws : Nat) (neg : Bool) : Cmd :=
  cmp (some a) (some n) ;; .alt (modMpi (w + 1) a n) (copy (w + 1) a) ;;
  montmul (w + 1) (some rr) n t ;; copy x rr ;; montmul x none n t ;;
  (if 1 < ws then
    grow (w + 2 ^ (ws - 1)) ;; copy (w + 2 ^ (ws - 1)) (w + 1) ;;
    .loop (montmul (w + 2 ^ (ws - 1)) (some (w + 2 ^ (ws - 1))) n t) ;;
    seqL ((List.range (2 ^ (ws - 1) - 1)).map fun i =>
      grow (w + 2 ^ (ws - 1) + i + 1) ;; copy (w + 2 ^ (ws - 1) + i + 1) (w + 2 ^ (ws - 1) + i) ;;
        montmul (w + 2 ^ (ws - 1) + i + 1) (some (w + 1)) n t)
  else .skip) ;;
  .loop (get e ;; .alt .skip (.alt (montmul x (some x) n t)
    (.loop (montmul x (some x) n t) ;;
      altL ((List.range (2 ^ (ws - 1))).map fun i => montmul x (some (w + 2 ^ (ws - 1) + i)) n t)))) ;;
  .loop (montmul x (some x) n t ;; opt (montmul x (some (w + 1)) n t)) ;;
  montmul x none n t ;; (if neg then get e ;; opt (addMpi x (some n) (some x)) else .skip)

/-- The temporaries released in every case, `src/mbedtls/bignum.c` 1741-1744. -/
def expTemps (t ap w ws : Nat) : List Nat :=
  ((List.range (2 ^ (ws - 1))).map fun i => w + 2 ^ (ws - 1) + i) ++ [w + 1, t, ap]

/-- `mbedtls_mpi_exp_mod`, `src/mbedtls/bignum.c` 1577-1750, for one size of the window and one sign of `A`;
`q` is `_RR`. -/
def expBody (x a e n : Nat) (q : Option Nat) (rr t ap w ws : Nat) (neg : Bool) : Cmd :=
  match q with
  | none =>
    cleanup (expPre x a n t ap w neg ;; expRR rr n ;; expPost x (if neg then ap else a) e n rr t w ws neg)
      (freeAll (expTemps t ap w ws) ;; free rr)
  | some r =>
    cleanup
      (expPre x a n t ap w neg ;;
       .ifNull r (expRR rr n ;; alias r rr) (alias rr r) ;;
       expPost x (if neg then ap else a) e n rr t w ws neg)
      (freeAll (expTemps t ap w ws) ;; .ifNull r (free rr) .skip)

/-- `mbedtls_mpi_exp_mod`, `src/mbedtls/bignum.c` 1547-1750.  The locals are `RR`, `T`, `Apos` and `W[128]`. -/
def expMod (x a e n : Nat) (q : Option Nat) : Cmd :=
  get n ;; mayFail ;; get e ;; mayFail ;; .locals 131 fun s =>
    initAll (List.range' s 131) ;; look e ;;
    altL ([1, 3, 4, 5, 6].map fun ws =>
      .alt (expBody x a e n q s (s + 1) (s + 2) (s + 3) ws true) (expBody x a e n q s (s + 1) (s + 2) (s + 3) ws false))

/-- `mbedtls_mpi_gcd`, `src/mbedtls/bignum.c` 1755-1802. -/
def gcd (g a b : Nat) : Cmd :=
  .locals 3 fun s => initAll [s, s + 1, s + 2] ;;
    cleanup
      (copy (s + 1) a ;; copy (s + 2) b ;; look (s + 1) ;; look (s + 2) ;; shiftR (s + 1) ;; shiftR (s + 2) ;;
       .loop (get (s + 1) ;; shiftR (s + 1) ;; shiftR (s + 2) ;; cmp (some (s + 1)) (some (s + 2)) ;;
         .alt (subAbs (s + 1) (some (s + 1)) (some (s + 2)) ;; shiftR (s + 1))
           (subAbs (s + 2) (some (s + 2)) (some (s + 1)) ;; shiftR (s + 2))) ;;
       get (s + 1) ;; shiftL (s + 2) ;; copy g (s + 2))
      (freeAll [s, s + 1, s + 2])

/-- `mbedtls_mpi_fill_random`, `src/mbedtls/bignum.c` 1811-1826. -/
def fillRandom (x : Nat) : Cmd := mayFail ;; mayFail ;; readBinary x

/-- `mbedtls_mpi_inv_mod`, `src/mbedtls/bignum.c` 1864-1908: the loops.  `TA, TU, U1, U2, TB, TV, V1, V2`. -/
def invMain (x n ta tu u1 u2 tb tv v1 v2 : Nat) : Cmd :=
  loop1 (
    .loop (get tu ;; shiftR tu ;; get u1 ;; get u2 ;;
      opt (addMpi u1 (some u1) (some tb) ;; subMpi u2 (some u2) (some ta)) ;; shiftR u1 ;; shiftR u2) ;;
    .loop (get tv ;; shiftR tv ;; get v1 ;; get v2 ;;
      opt (addMpi v1 (some v1) (some tb) ;; subMpi v2 (some v2) (some ta)) ;; shiftR v1 ;; shiftR v2) ;;
    cmp (some tu) (some tv) ;;
    .alt
      (subMpi tu (some tu) (some tv) ;; subMpi u1 (some u1) (some v1) ;; subMpi u2 (some u2) (some v2))
      (subMpi tv (some tv) (some tu) ;; subMpi v1 (some v1) (some u1) ;; subMpi v2 (some v2) (some u2)) ;;
    get tu) ;;
  .loop (get v1 ;; addMpi v1 (some v1) (some n)) ;;
  .loop (cmp (some v1) (some n) ;; subMpi v1 (some v1) (some n)) ;;
  copy x v1

/-- `mbedtls_mpi_inv_mod`, `src/mbedtls/bignum.c` 1831-1921. -/
def invMod (x a n : Nat) : Cmd :=
  get n ;; mayFail ;; .locals 9 fun s =>
    initAll [s, s + 1, s + 2, s + 3, s + 4, s + 5, s + 6, s + 7, s + 8] ;;
    cleanup
      (gcd (s + 4) a n ;; get (s + 4) ;; mayFail ;;
       modMpi s a n ;; copy (s + 1) s ;; copy (s + 5) n ;; copy (s + 6) n ;;
       lset (s + 2) ;; lset (s + 3) ;; lset (s + 7) ;; lset (s + 8) ;;
       invMain x n s (s + 1) (s + 2) (s + 3) (s + 5) (s + 6) (s + 7) (s + 8))
      (freeAll [s, s + 1, s + 2, s + 3, s + 4, s + 5, s + 6, s + 7, s + 8])

/-- `mpi_check_small_factors`, `src/mbedtls/bignum.c` 1959-1981. -/
def checkSmall (x : Nat) : Cmd := get x ;; mayFail ;; .loop (get x ;; modInt x ;; mayFail)

/-- `mpi_miller_rabin`, `src/mbedtls/bignum.c` 1986-2085.  `giveUp`: whether more than 30 random bases in a row
can be out of range, so that lines 2038-2040 are reached. -/
def millerRabin (giveUp : Bool) (x : Nat) : Cmd :=
  .fn (.locals 5 fun s => initAll [s, s + 1, s + 2, s + 3, s + 4] ;;
    cleanup
      (subInt s x ;; look s ;; copy (s + 1) s ;; shiftR (s + 1) ;; look x ;;
       .loop (
         get x ;; fillRandom (s + 3) ;; cmp (some (s + 3)) (some s) ;; opt (shiftR (s + 3)) ;;
         get (s + 3) ;; setW (s + 3) ;;
         loop1 (fillRandom (s + 3) ;; look (s + 3) ;; look s ;; opt (shiftR (s + 3)) ;;
           (if giveUp then .alt (.ret true) .skip else .skip) ;; cmp (some (s + 3)) (some s) ;; get (s + 3)) ;;
         expMod (s + 3) (s + 3) (s + 1) x (some (s + 4)) ;;
         cmp (some (s + 3)) (some s) ;; get (s + 3) ;;
         .alt .skip
           (.loop (cmp (some (s + 3)) (some s) ;; mulMpi (s + 2) (some (s + 3)) (some (s + 3)) ;;
              modMpi (s + 3) (s + 2) x ;; get (s + 3)) ;;
            cmp (some (s + 3)) (some s) ;; get (s + 3) ;; mayFail)))
      (freeAll [s, s + 1, s + 2, s + 3, s + 4]))

/-- `mbedtls_mpi_is_prime`, `src/mbedtls/bignum.c` 2090-2117; `XX` shares the limbs of `X` and is only read. -/
def isPrime (giveUp : Bool) (x : Nat) : Cmd :=
  get x ;; mayFail ;; .alt .skip (checkSmall x ;; .alt .skip (millerRabin giveUp x))

/-- `mbedtls_mpi_gen_prime`, `src/mbedtls/bignum.c` 2122-2213. -/
def genPrime (giveUp : Bool) (x : Nat) : Cmd :=
  mayFail ;; .locals 1 fun y => initAll [y] ;;
    cleanup
      (fillRandom x ;; look x ;; opt (shiftR x) ;; .ign (setBit x) ;; get x ;; setW x ;;
       .alt
        (.loop (.ign (isPrime giveUp x) ;; mayFail ;; addInt x x) ;; isPrime giveUp x)
        (get x ;; setW x ;; modInt x ;; opt (addInt x x) ;; copy y x ;; shiftR y ;;
         .loop (.ign (checkSmall x ;; checkSmall y ;; millerRabin giveUp x ;; millerRabin giveUp y) ;; mayFail ;;
           addInt x x ;; addInt y y) ;;
         (checkSmall x ;; mayFail ;; checkSmall y ;; mayFail ;; millerRabin giveUp x ;; millerRabin giveUp y)))
      (freeAll [y])

end Verif.Heap
