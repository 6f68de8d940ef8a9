import Verif.Aez.AeadCore
import Verif.Aez.PropsSpec

/-!
# `aez_encrypt` and `aez_decrypt` with a nonce and authentication bytes (C84)

For every AES round function, every 48-byte key, every nonce and every number of authentication bytes of up to 16.
-/

namespace Verif.Aez.Aead

open Verif Verif.Aez

/-- The first `n` bytes. -/
def firstBytes (f : Nat → UInt8) (n : Nat) : Bytes := (List.range n).map f

@[simp] theorem firstBytes_length (f : Nat → UInt8) (n : Nat) : (firstBytes f n).length = n := by simp [firstBytes]

theorem firstBytes_getD {f : Nat → UInt8} {n i : Nat} (h : i < n) : (firstBytes f n).getD i 0 = f i := by
  rw [firstBytes, List.getD_eq_getElem?_getD]; simp [h]

theorem firstBytes_eq {f : Nat → UInt8} {n : Nat} {l : Bytes} (hl : l.length = n) (h : ∀ i, i < n → f i = l.getD i 0) : firstBytes f n = l :=
  list_ext_getD (by simp [hl]) fun i hi => by rw [firstBytes_getD (by omega), h i (by omega)]

theorem firstBytes_congr {f g : Nat → UInt8} {n : Nat} (h : ∀ i, i < n → f i = g i) : firstBytes f n = firstBytes g n :=
  firstBytes_eq (by simp) fun i hi => by rw [firstBytes_getD hi, h i hi]

theorem firstBytes_fn (l : Bytes) : firstBytes (fn l) l.length = l := firstBytes_eq rfl fun _ _ => rfl

section
variable (R : Block → Block)

/-- What is written, for short and long messages. -/
def outFn (c : Ctx) (t : Block) (d : Bool) (n : Nat) (P : Nat → UInt8) : Nat → UInt8 := if n < 32 then tinyFn R c t d n P else coreFn R c t d n P

theorem outFn_Out (c : Ctx) (t : Block) (d : Bool) (n : Nat) (P : Nat → UInt8) : Out R c t d n P (outFn R c t d n P) := by
  simp only [Out, outFn]
  by_cases h : n < 32
  · rw [if_pos h, if_pos h]; exact tinyFn_bits R c t d h P
  · rw [if_neg h, if_neg h]; exact fun _ _ => rfl

/-- Both branches of the two functions. -/
def cipher (c : Ctx) (t : Block) (d al : Bool) (b a : Nat) (m : Mem) : Res (Mem × Bool) :=
  if (if d then b else (b + a) % 4294967296) < 32 then tinyA R c t d al b a m else coreA R c t d al b a m

theorem cipher_ok (c : Ctx) (t : Block) (d al : Bool) (b n a : Nat) (m : Mem) (hn : n = if d then b else b + a) (hlt : n < 4294967296)
    (ha : a ≤ 16) (han : a ≤ n) (hS : (if n < 32 then b else n) ≤ ssize al m) (hD : written d n a ≤ m.dst.size) :
    ∃ m' ok, cipher R c t d al b a m = .ok (m', ok) ∧ (ok = true ↔ Zeros d n a (outFn R c t d n (padded d n a (sdat al m)))) ∧
      m'.src = m.src ∧ m'.dst.size = m.dst.size ∧
      (ok = true → ∀ i, i < written d n a → m'.dst.data i = outFn R c t d n (padded d n a (sdat al m)) i) ∧
      (∀ i, written d n a ≤ i → m'.dst.data i = m.dst.data i) ∧
      (ok = false → ∀ i, n - n % 32 - 32 ≤ i → m'.dst.data i = m.dst.data i) := by
  have hbn : (if d then b else (b + a) % 4294967296) = n := by
    cases d
    · simp only [Bool.false_eq_true, if_false] at hn ⊢; omega
    · simp only [if_true] at hn ⊢; omega
  rw [cipher, hbn]
  simp only [outFn]
  by_cases h32 : n < 32
  · simp only [h32, if_true] at hS ⊢
    obtain ⟨m', ok, h1, h2, h3, h4, h5, h6, h7⟩ := tinyA_ok R c t d al b n a m hn h32 ha han hS hD
    exact ⟨m', ok, h1, h2, h3, h4, h5, h6, fun h i _ => by rw [h7 h]⟩
  · simp only [h32, if_false] at hS ⊢
    exact coreA_ok R c t d al b n a m hn hlt (by omega) ha hS hD

end

section
variable {R : Block → Block} {r : Nat → Nat} (hr : ∀ b, Spec.val (R b) = r (Spec.val b)) {key : Bytes} (hk : key.length = 48)
include hr hk

omit hr hk in
theorem val_abytes {a : Nat} (ha : a ≤ 16) : Spec.val (zeroSetByte (UInt8.ofNat (8 * a)) 15) = 8 * a := by
  have hb : ∀ j : Fin 17, Spec.val (zeroSetByte (UInt8.ofNat (8 * j.1)) 15) = 8 * j.1 := by decide +kernel
  have := hb ⟨a, by omega⟩
  simpa only using this

omit hr hk in
theorem val_pad32 : Spec.val (blk pad.data 32) = 2 ^ 127 := by decide +kernel

omit hr hk in
theorem take_ofFn_first {x : Block} {f : Nat → UInt8} {nb : Nat} (hnb : nb ≤ 16) (hx : ∀ i : Fin 16, i.1 < nb → x i = f i.1) :
    (List.ofFn x).take nb = firstBytes f nb := by
  apply List.ext_getElem
  · simp; omega
  · intro i h1 h2
    simp only [firstBytes_length] at h2
    rw [List.getElem_take, List.getElem_ofFn, hx _ h2]
    simp only [firstBytes, List.getElem_map, List.getElem_range]

theorem vEH (x off : Block) {i j v : Nat} (ho : Spec.val off = AezSpec.offH (AezSpec.key key) i j) (hx : Spec.val x = v) :
    Spec.val (aes4 R (bx off x) (ctxOf key).J0 (ctxOf key).I0 (ctxOf key).L off) = AezSpec.EH r (AezSpec.key key) i j v := by
  subst hx
  rw [AezSpec.EH, ← ho, Nat.xor_comm]
  simp only [aes4, val_bx, vEnc hr, vI0 hk, vJ0 hk, vL hk, AezSpec.aesRounds, List.foldl_cons, List.foldl_nil]

omit hr in
theorem vOffs : Spec.val (bx (ctxOf key).L (bswap (dbl (bswap (ctxOf key).J2)))) = AezSpec.offH (AezSpec.key key) 3 1 ∧
    Spec.val (bx (bswap (dbl (bswap (ctxOf key).L))) (bswap (dbl (bswap (ctxOf key).J2)))) = AezSpec.offH (AezSpec.key key) 4 1 ∧
    Spec.val (bswap (dbl (bswap (ctxOf key).L))) = AezSpec.offH (AezSpec.key key) 4 0 ∧
    Spec.val (bswap (dbl (dbl (bswap (ctxOf key).L)))) = AezSpec.offH (AezSpec.key key) 5 0 := by
  have h8 : Spec.val (bswap (dbl (bswap (ctxOf key).J2))) = AezSpec.shift 3 (AezSpec.key key).J := by
    rw [val_dbl, vJ2 hk]; rfl
  have h2 : Spec.val (bswap (dbl (bswap (ctxOf key).L))) = AezSpec.shift 1 (AezSpec.key key).L := by
    rw [val_dbl, vL hk]; rfl
  have h4 : Spec.val (bswap (dbl (dbl (bswap (ctxOf key).L)))) = AezSpec.shift 2 (AezSpec.key key).L := by
    have := val_dbl (bswap (dbl (bswap (ctxOf key).L)))
    rw [bswap_bswap, val_dbl, vL hk] at this
    exact this
  have hoff : AezSpec.off (AezSpec.key key).J 1 = AezSpec.shift 3 (AezSpec.key key).J := by
    rw [AezSpec.off, show AezSpec.times ((1 - 1) % 8) (AezSpec.key key).J = 0 from by simp [AezSpec.times], Nat.xor_zero]
  have o3 : AezSpec.offH (AezSpec.key key) 3 1 = (AezSpec.key key).L ^^^ AezSpec.shift 3 (AezSpec.key key).J := by
    rw [AezSpec.offH, if_neg (by omega), hoff]; rfl
  have o4 : AezSpec.offH (AezSpec.key key) 4 1 = AezSpec.shift 1 (AezSpec.key key).L ^^^ AezSpec.shift 3 (AezSpec.key key).J := by
    rw [AezSpec.offH, if_neg (by omega), hoff]
  have o40 : AezSpec.offH (AezSpec.key key) 4 0 = AezSpec.shift 1 (AezSpec.key key).L := by
    rw [AezSpec.offH, if_pos rfl, Nat.xor_zero]
  have o5 : AezSpec.offH (AezSpec.key key) 5 0 = AezSpec.shift 2 (AezSpec.key key).L := by
    rw [AezSpec.offH, if_pos rfl, Nat.xor_zero]
  exact ⟨by rw [val_bx, h8, vL hk, o3], by rw [val_bx, h8, h2, o4], by rw [h2, o40], by rw [h4, o5]⟩

omit hr hk in
theorem hashN_ok (c : Ctx) (nonce : Buf) {nb a : Nat} (hnb : nb ≤ 16) (hns : nb ≤ nonce.size) :
    hashN R c nonce nb a = .ok (bx (bx (aes4 R (bx (bx c.L (bswap (dbl (bswap c.J2)))) (zeroSetByte (UInt8.ofNat (8 * a)) 15)) c.J0 c.I0 c.L
        (bx c.L (bswap (dbl (bswap c.J2)))))
      (aes4 R (bx (if nb = 16 then bx (bswap (dbl (bswap c.L))) (bswap (dbl (bswap c.J2))) else bswap (dbl (bswap c.L)))
        (ozp (fun i => if i.1 < nb then nonce.data (0 + i.1) else 0) nb)) c.J0 c.I0 c.L
        (if nb = 16 then bx (bswap (dbl (bswap c.L))) (bswap (dbl (bswap c.J2))) else bswap (dbl (bswap c.L)))))
      (aes4 R (bx (bswap (dbl (dbl (bswap c.L)))) (blk pad.data 32)) c.J0 c.I0 c.L (bswap (dbl (dbl (bswap c.L)))))) := by
  have h1 := ldPart_ok (b := nonce) (off := 0) (n := nb) (by omega) hnb
  have h2 : ∀ x, oneZeroPad x (subU 16 nb) = .ok (ozp x nb) := fun x => oneZeroPad_eq x nb _ (subU_eq hnb (by omega)) hnb
  have h3 : ld pad 32 = .ok (blk pad.data 32) := ld_ok (show 32 + 16 ≤ 48 by omega)
  simp only [hashN, h1, h2, h3, Res.bind_ok, Res.pure_eq]

omit hr hk in
theorem vNonce {nonce : Buf} {nb : Nat} (hnb : nb ≤ 16) :
    Spec.val (ozp (fun i => if i.1 < nb then nonce.data (0 + i.1) else 0) nb) =
      if nb = 16 then beNat (firstBytes nonce.data nb) else AezSpec.pad10 (firstBytes nonce.data nb) := by
  generalize hx : (fun i : Fin 16 => if i.1 < nb then nonce.data (0 + i.1) else 0 : Block) = x
  have htake : (List.ofFn x).take nb = firstBytes nonce.data nb :=
    take_ofFn_first hnb fun i hi => by rw [← hx]; simp only [hi, if_true, Nat.zero_add]
  by_cases h16 : nb = 16
  · have : ozp x nb = x := by funext i; simp only [ozp]; rw [if_pos (by omega)]
    rw [if_pos h16, this, ← htake, List.take_of_length_le (by simp; omega), Spec.val]
  · rw [if_neg h16, vOzp _ (by omega), htake]

/-- The hash of the number of authentication bytes and the nonce. -/
theorem vHashN (nonce : Buf) {nb a : Nat} (hnb : nb ≤ 16) (hns : nb ≤ nonce.size) (ha : a ≤ 16) :
    ∃ t, hashN R (ctxOf key) nonce nb a = .ok t ∧ Spec.val t = AezSpec.deltaN r (AezSpec.key key) a (firstBytes nonce.data nb) := by
  obtain ⟨o3, o4, o40, o5⟩ := vOffs hk
  refine ⟨_, hashN_ok _ nonce hnb hns, ?_⟩
  have hN := vNonce (nonce := nonce) hnb
  rw [AezSpec.deltaN, firstBytes_length, val_bx, val_bx, vEH hr hk _ _ o3 (val_abytes ha), vEH hr hk _ _ o5 val_pad32]
  by_cases h16 : nb = 16
  · rw [if_pos h16] at hN
    rw [if_pos h16, if_pos h16, vEH hr hk _ _ o4 hN]
  · rw [if_neg h16] at hN
    rw [if_neg h16, if_neg h16, vEH hr hk _ _ o40 hN]

/-- The tag of the empty message. -/
theorem vEmptyTag {t : Block} {a : Nat} {N : Bytes} (ht : Spec.val t = AezSpec.deltaN r (AezSpec.key key) a N) :
    (List.ofFn (emptyTag R (ctxOf key) t)).take a = AezSpec.prf r (AezSpec.key key) a N := by
  have h : Spec.val (emptyTag R (ctxOf key) t) = AezSpec.Em1 r (AezSpec.key key) 3 (AezSpec.deltaN r (AezSpec.key key) a N) := by
    rw [emptyTag, vAes hr hk, AezSpec.Em1, times_3, val_bx, vJ0 hk, vJ1 hk, ht]
  rw [AezSpec.prf, ← h, beBytes_val]

/-- `outFn` is the specification. -/
theorem outFn_spec {t : Block} {D : Nat} (ht : Spec.val t = D) (d : Bool) {n : Nat} (P : Nat → UInt8) :
    firstBytes (outFn R (ctxOf key) t d n P) n =
      (if d then AezSpec.decipherD r (AezSpec.key key) D (firstBytes P n) else AezSpec.encipherD r (AezSpec.key key) D (firstBytes P n)) := by
  have ho := outFn_Out R (ctxOf key) t d n P
  have ho' := outFn_Out R (ctxOf key) t d n (fn (firstBytes P n))
  have hdet := Out_det R (ctxOf key) t d n P (fn (firstBytes P n)) _ _ (fun i hi => (firstBytes_getD hi).symm) ho ho'
  rw [firstBytes_congr hdet]
  refine firstBytes_eq (by rw [specD_length]; simp) fun i hi => ?_
  have := out_specD hr hk ht d (firstBytes P n) (Q := outFn R (ctxOf key) t d n (fn (firstBytes P n)))
    (by rw [firstBytes_length]; exact ho') i (by simpa using hi)
  exact this

/-- The two directions undo each other, for every tweak that is the value of a block. -/
theorem specD_inverse {t : Block} {D : Nat} (ht : Spec.val t = D) (s : Bytes) :
    AezSpec.decipherD r (AezSpec.key key) D (AezSpec.encipherD r (AezSpec.key key) D s) = s ∧
    AezSpec.encipherD r (AezSpec.key key) D (AezSpec.decipherD r (AezSpec.key key) D s) = s := by
  have main : ∀ d, (if !d then AezSpec.decipherD r (AezSpec.key key) D else AezSpec.encipherD r (AezSpec.key key) D)
      (firstBytes (outFn R (ctxOf key) t d s.length (fn s)) s.length) = s := by
    intro d
    have h1 := outFn_spec hr hk ht (!d) (n := s.length) (outFn R (ctxOf key) t d s.length (fn s))
    have h2 := Out_inv R (ctxOf key) t d s.length (fn s) _ _ (outFn_Out R (ctxOf key) t d s.length (fn s)) (outFn_Out R (ctxOf key) t (!d) s.length _)
    rw [firstBytes_congr h2, firstBytes_fn] at h1
    cases d
    · exact h1.symm
    · exact h1.symm
  refine ⟨?_, ?_⟩
  · have := main false
    rwa [outFn_spec hr hk ht false, firstBytes_fn] at this
  · have := main true
    rwa [outFn_spec hr hk ht true, firstBytes_fn] at this

omit hr hk in
theorem encipherD_length (D : Nat) (s : Bytes) : (AezSpec.encipherD r (AezSpec.key key) D s).length = s.length := by
  have := specD_length (r := r) (key := key) (D := D) false s; simpa using this

omit hr hk in
theorem decipherD_length (D : Nat) (s : Bytes) : (AezSpec.decipherD r (AezSpec.key key) D s).length = s.length := by
  have := specD_length (r := r) (key := key) (D := D) true s; simpa using this

omit hr hk in
theorem firstBytes_padded (P : Nat → UInt8) (b a : Nat) :
    firstBytes (padded false (b + a) a P) (b + a) = firstBytes P b ++ List.replicate a 0 := by
  refine firstBytes_eq (by simp) fun i hi => ?_
  rw [padded, Nat.add_sub_cancel]
  by_cases h : b ≤ i
  · rw [if_pos ⟨rfl, h⟩, getD_append_ge _ _ _ _ (by simpa using h), firstBytes_length, List.getD_eq_getElem?_getD, List.getElem?_replicate]
    rw [if_pos (by omega)]; rfl
  · rw [if_neg (by simp [h]), getD_append_lt _ _ _ _ (by simp; omega), firstBytes_getD (by omega)]

/-! ## Encryption -/

/-- C84: for every key, nonce, number of authentication bytes and message, in place or not, `aez_encrypt` writes the AEZ encryption of the message and leaves the
rest as it was — provided that, for messages that together with the authentication bytes have 32 bytes or more, the source has as many more readable bytes
as there are authentication bytes. -/
theorem c84_encrypt_partial (nonce : Buf) (nb a : Nat) (hnb : nb ≤ 16) (hns : nb ≤ nonce.size) (ha : a ≤ 16) (al : Bool) (b : Nat) (m : Mem)
    (hlt : b + a < 4294967296) (hS : (if b + a < 32 then b else b + a) ≤ ssize al m) (hD : b + a ≤ m.dst.size) :
    ∃ m', enc R (ctxOf key) nonce nb a al b m = .ok m' ∧ m'.src = m.src ∧ m'.dst.size = m.dst.size ∧
      firstBytes m'.dst.data (b + a) = AezSpec.encrypt r (AezSpec.key key) a (firstBytes nonce.data nb) (firstBytes (sdat al m) b) ∧
      (∀ i, b + a ≤ i → m'.dst.data i = m.dst.data i) := by
  obtain ⟨t, e0, ht⟩ := vHashN hr hk nonce hnb hns ha
  rw [enc, e0]
  simp only [Res.bind_ok]
  by_cases hb : b = 0
  · subst hb
    rw [if_pos rfl, stBytes, if_pos (by omega)]
    refine ⟨_, rfl, rfl, rfl, ?_, fun i hi => ?_⟩
    · rw [AezSpec.encrypt, if_pos (by simp [firstBytes]), ← vEmptyTag hr hk ht]
      refine firstBytes_eq (by simp; omega) fun i hi => ?_
      simp only
      rw [dif_pos (by omega), List.getD_eq_getElem?_getD, List.getElem?_take_of_lt (by omega), List.getElem?_ofFn, dif_pos (by omega)]
      simp
    · simp only
      rw [dif_neg (by omega)]
  · rw [if_neg hb]
    have hc : (if (b + a) % 4294967296 < 32 then Prod.fst <$> tinyA R (ctxOf key) t false al b a m
        else Prod.fst <$> coreA R (ctxOf key) t false al b a m) = Prod.fst <$> cipher R (ctxOf key) t false al b a m := by
      rw [cipher, if_neg (show ¬ (false = true) by decide)]; split <;> rfl
    rw [hc]
    obtain ⟨m', ok, h1, h2, h3, h4, h5, h6, -⟩ := cipher_ok R (ctxOf key) t false al b (b + a) a m rfl hlt ha (by omega) hS hD
    rw [h1]
    have hok : ok = true := h2.2 fun h => absurd h (by decide)
    refine ⟨m', rfl, h3, h4, ?_, h6⟩
    have hw : written false (b + a) a = b + a := rfl
    rw [hw] at h5
    rw [firstBytes_congr (h5 hok), outFn_spec hr hk ht false, if_neg (by decide), firstBytes_padded, AezSpec.encrypt, if_neg]
    intro h
    have := congrArg List.length h
    simp at this
    exact hb this

/-- C84, the missing part: without those bytes the call is undefined for every message of that size. The function reads up to 16 bytes behind the message (and then
ignores them): a caller who passes a message in a buffer of its size makes it read outside. -/
theorem c84_overread (nonce : Buf) (nb a : Nat) (hnb : nb ≤ 16) (hns : nb ≤ nonce.size) (ha : a ≤ 16) (b : Nat) (m : Mem) (hb : b ≠ 0)
    (hlt : b + a < 4294967296) (h32 : 32 ≤ b + a) (h1 : b ≤ m.src.size) (h2 : m.src.size < b + a) (hD : b + a ≤ m.dst.size) :
    enc R (ctxOf key) nonce nb a false b m = .ub := by
  obtain ⟨t, e0, ht⟩ := vHashN hr hk nonce hnb hns ha
  rw [enc, e0]
  simp only [Res.bind_ok]
  rw [if_neg hb, Nat.mod_eq_of_lt hlt, if_neg (by omega), coreA_ub R _ t b a m hlt h32 ha h1 h2 hD]
  rfl

/-- Nor is it defined when the number of bytes does not fit: the sum wraps around, and a message of almost 4 GiB is treated as a short one. -/
theorem c84_wrap (nonce : Buf) (nb a : Nat) (hnb : nb ≤ 16) (hns : nb ≤ nonce.size) (ha : a ≤ 16) (al : Bool) (b : Nat) (m : Mem)
    (hb : b < 4294967296) (hlt : 4294967296 ≤ b + a) : enc R (ctxOf key) nonce nb a al b m = .ub := by
  obtain ⟨t, e0, ht⟩ := vHashN hr hk nonce hnb hns ha
  have hload : tinyLoad al b m = .ub := by
    have : ∀ src : Buf, tinyLoadFrom src b = .ub := by
      intro src
      have h1 : tinyBuf1 src b = .ub := by
        rw [tinyBuf1, if_pos (by omega), ldPart, if_neg (by omega)]; rfl
      have h0 : ∃ x, tinyBuf0 src b = .ok x ∨ tinyBuf0 src b = .ub := by
        rw [tinyBuf0, if_pos (by omega), ld]
        split
        · exact ⟨_, .inl rfl⟩
        · exact ⟨bzero, .inr rfl⟩
      obtain ⟨x, h0 | h0⟩ := h0
      · rw [tinyLoadFrom, h0, h1]; rfl
      · rw [tinyLoadFrom, h0]; rfl
    exact this _
  rw [enc, e0]
  simp only [Res.bind_ok]
  rw [if_neg (by omega), if_pos (by omega), tinyA, hload]
  rfl

/-! ## Decryption -/

omit hr hk in
theorem spec_take_drop {X : Bytes} {n a : Nat} (hl : X.length = n) (ha : a ≤ n) :
    X.drop (n - a) = List.replicate a 0 ↔ ∀ i, n - a ≤ i → i < n → X.getD i 0 = 0 := by
  constructor
  · intro h i h1 h2
    have := congrArg (fun l => l.getD (i - (n - a)) 0) h
    simp only [List.getD_eq_getElem?_getD, List.getElem?_drop, List.getElem?_replicate] at this
    rw [show n - a + (i - (n - a)) = i by omega, if_pos (by omega)] at this
    rw [List.getD_eq_getElem?_getD, this]; rfl
  · intro h
    refine list_ext_getD (by simp [hl]; omega) fun i hi => ?_
    simp only [List.length_replicate] at hi
    have := h (n - a + i) (by omega) (by omega)
    rw [List.getD_eq_getElem?_getD, List.getElem?_drop, ← List.getD_eq_getElem?_getD, this, List.getD_eq_getElem?_getD, List.getElem?_replicate, if_pos hi]
    rfl

/-- C84: for every key, nonce, number of authentication bytes and ciphertext that is not exactly as long as the authentication bytes, in place or not,
`aez_decrypt` returns 0 and the message exactly for the strings that the specification accepts, and -1 for all others; then it has written only to the first
bytes, before the last 32 to 63. The destination has room for the message only. -/
theorem c84_decrypt_partial (nonce : Buf) (nb a : Nat) (hnb : nb ≤ 16) (hns : nb ≤ nonce.size) (ha : a ≤ 16) (al : Bool) (n : Nat) (m : Mem)
    (hne : n = a → a = 0) (hlt : n < 4294967296) (hS : n ≤ ssize al m) (hD : n - a ≤ m.dst.size) :
    ∃ m' ok, dec R (ctxOf key) nonce nb a al n m = .ok (m', ok) ∧ m'.src = m.src ∧ m'.dst.size = m.dst.size ∧
      (∀ M, AezSpec.decrypt r (AezSpec.key key) a (firstBytes nonce.data nb) (firstBytes (sdat al m) n) = some M →
        ok = true ∧ firstBytes m'.dst.data (n - a) = M) ∧
      (AezSpec.decrypt r (AezSpec.key key) a (firstBytes nonce.data nb) (firstBytes (sdat al m) n) = none →
        ok = false ∧ ∀ i, n - n % 32 - 32 ≤ i → m'.dst.data i = m.dst.data i) ∧
      (∀ i, n - a ≤ i → m'.dst.data i = m.dst.data i) := by
  rw [dec, AezSpec.decrypt, firstBytes_length]
  by_cases hlt2 : n < a
  · rw [if_pos hlt2, if_pos hlt2]
    refine ⟨m, false, rfl, rfl, rfl, ?_, ?_, fun _ _ => rfl⟩
    · intro M h; cases h
    · intro _; exact ⟨rfl, fun _ _ => rfl⟩
  · rw [if_neg hlt2, if_neg hlt2]
    obtain ⟨t, e0, ht⟩ := vHashN hr hk nonce hnb hns ha
    rw [e0]
    simp only [Res.bind_ok]
    by_cases h0 : n = a
    · have ha0 := hne h0
      subst h0; subst ha0
      rw [if_pos rfl, if_pos rfl, ldPart_ok (by omega) (by omega)]
      simp only [Res.bind_ok]
      rw [zeroPad_eq _ 0 _ (by rw [subU_eq (by omega) (by omega)]) (by omega), zeroPad_eq _ 0 _ (by rw [subU_eq (by omega) (by omega)]) (by omega)]
      simp only [Res.bind_ok, Nat.not_lt_zero, if_false, Res.pure_eq]
      have hz : isZero (bandnot (fun _ => 0) (fun _ => 0)) = true := (isZero_iff _).2 fun i => by simp [bandnot]
      rw [hz]
      have hp : AezSpec.prf r (AezSpec.key key) 0 (firstBytes nonce.data nb) = [] := by simp [AezSpec.prf]
      rw [hp, if_pos (by simp [firstBytes])]
      refine ⟨m, true, rfl, rfl, rfl, ?_, ?_, fun _ _ => rfl⟩
      · intro M h; cases h; exact ⟨rfl, by simp [firstBytes]⟩
      · intro h; cases h
    · rw [if_neg h0, if_neg h0]
      have hc : (if n < 32 then tinyA R (ctxOf key) t true al n a m else coreA R (ctxOf key) t true al n a m) =
          cipher R (ctxOf key) t true al n a m := by
        rw [cipher, if_pos rfl]
      rw [hc]
      obtain ⟨m', ok, h1, h2, h3, h4, h5, h6, h7⟩ := cipher_ok R (ctxOf key) t true al n n a m rfl hlt ha (by omega) (by split <;> exact hS) hD
      have hpad : padded true n a (sdat al m) = sdat al m := by funext i; simp [padded]
      rw [hpad] at h2 h5
      have hspec := outFn_spec hr hk ht true (n := n) (sdat al m)
      rw [if_pos rfl] at hspec
      have hX : ∀ i, i < n → (AezSpec.decipherD r (AezSpec.key key) (AezSpec.deltaN r (AezSpec.key key) a (firstBytes nonce.data nb))
          (firstBytes (sdat al m) n)).getD i 0 = outFn R (ctxOf key) t true n (sdat al m) i := by
        intro i hi; rw [← hspec, firstBytes_getD hi]
      have hlen : (AezSpec.decipherD r (AezSpec.key key) (AezSpec.deltaN r (AezSpec.key key) a (firstBytes nonce.data nb))
          (firstBytes (sdat al m) n)).length = n := by rw [decipherD_length]; simp
      generalize AezSpec.decipherD r (AezSpec.key key) (AezSpec.deltaN r (AezSpec.key key) a (firstBytes nonce.data nb))
          (firstBytes (sdat al m) n) = X at hX hlen
      have hiff : ok = true ↔ X.drop (n - a) = List.replicate a 0 := by
        rw [h2, spec_take_drop hlen (by omega)]
        exact ⟨fun h i x y => by rw [hX i y]; exact h rfl i x y, fun h _ i x y => by rw [← hX i y]; exact h i x y⟩
      refine ⟨m', ok, h1, h3, h4, ?_, ?_, h6⟩
      · intro M h
        by_cases hd : X.drop (n - a) = List.replicate a 0
        · rw [if_pos hd] at h
          cases h
          have hok := hiff.2 hd
          refine ⟨hok, firstBytes_eq (by rw [List.length_take]; omega) fun i hi => ?_⟩
          rw [h5 hok i hi, List.getD_eq_getElem?_getD, List.getElem?_take_of_lt hi, ← List.getD_eq_getElem?_getD, hX i (by omega)]
        · rw [if_neg hd] at h; cases h
      · intro h
        by_cases hd : X.drop (n - a) = List.replicate a 0
        · rw [if_pos hd] at h; cases h
        · have hok : ok = false := by
            cases ho : ok
            · rfl
            · exact absurd (hiff.1 ho) hd
          exact ⟨hok, h7 hok⟩

/-- The specification accepts exactly the encryptions. -/
theorem c84_spec (a : Nat) (ha : a ≤ 16) (N : Bytes) (hN : N.length ≤ 16) (C M : Bytes) :
    AezSpec.decrypt r (AezSpec.key key) a N C = some M ↔ C = AezSpec.encrypt r (AezSpec.key key) a N M := by
  obtain ⟨t, -, ht⟩ := vHashN hr hk ⟨N.length, fn N⟩ (nb := N.length) hN (Nat.le_refl _) ha
  rw [firstBytes_fn] at ht
  have hinv := specD_inverse hr hk ht
  have hprf : (AezSpec.prf r (AezSpec.key key) a N).length = a := by rw [AezSpec.prf]; simp; omega
  rw [AezSpec.decrypt, AezSpec.encrypt]
  constructor
  · intro h
    by_cases h1 : C.length < a
    · rw [if_pos h1] at h; cases h
    · rw [if_neg h1] at h
      by_cases h2 : C.length = a
      · rw [if_pos h2] at h
        by_cases h3 : C = AezSpec.prf r (AezSpec.key key) a N
        · rw [if_pos h3] at h; cases h; rw [if_pos rfl]; exact h3
        · rw [if_neg h3] at h; cases h
      · rw [if_neg h2] at h
        simp only at h
        by_cases h3 : (AezSpec.decipherD r (AezSpec.key key) (AezSpec.deltaN r (AezSpec.key key) a N) C).drop (C.length - a) = List.replicate a 0
        · rw [if_pos h3] at h
          have hM := Option.some.inj h
          have hl := decipherD_length (r := r) (key := key) (AezSpec.deltaN r (AezSpec.key key) a N) C
          have hne : M ≠ [] := by
            intro h0
            have := congrArg List.length hM
            rw [h0, List.length_take, hl] at this
            simp at this; omega
          rw [if_neg hne, ← hM, ← h3, List.take_append_drop, (hinv C).2]
        · rw [if_neg h3] at h; cases h
  · intro h
    by_cases hM : M = []
    · rw [if_pos hM] at h
      rw [if_neg (by rw [h, hprf]; omega), if_pos (by rw [h, hprf]), if_pos h, hM]
    · rw [if_neg hM] at h
      have hl : C.length = M.length + a := by rw [h, encipherD_length]; simp
      have hpos : 0 < M.length := List.length_pos_iff.2 hM
      rw [if_neg (by omega), if_neg (by omega)]
      simp only
      have hd : AezSpec.decipherD r (AezSpec.key key) (AezSpec.deltaN r (AezSpec.key key) a N) C = M ++ List.replicate a 0 := by
        rw [h, (hinv _).1]
      rw [hd, hl, Nat.add_sub_cancel, List.drop_left, if_pos rfl, List.take_left]

/-- C84: what has been encrypted is accepted and decrypts to the message, for messages of any length; the ciphertext may have been moved to another place. -/
theorem c84_roundtrip (nonce : Buf) (nb a : Nat) (hnb : nb ≤ 16) (hns : nb ≤ nonce.size) (ha : a ≤ 16) (al al2 : Bool) (b : Nat) (m m2 : Mem)
    (hlt : b + a < 4294967296) (hS : b + a ≤ ssize al m) (hD : b + a ≤ m.dst.size) (hS2 : b + a ≤ ssize al2 m2) (hD2 : b ≤ m2.dst.size) :
    ∃ m', enc R (ctxOf key) nonce nb a al b m = .ok m' ∧
      ((∀ i, i < b + a → sdat al2 m2 i = m'.dst.data i) →
        ∃ m2', dec R (ctxOf key) nonce nb a al2 (b + a) m2 = .ok (m2', true) ∧ firstBytes m2'.dst.data b = firstBytes (sdat al m) b) := by
  obtain ⟨m', h1, -, -, h2, -⟩ := c84_encrypt_partial hr hk nonce nb a hnb hns ha al b m hlt (by split <;> omega) hD
  refine ⟨m', h1, fun hcopy => ?_⟩
  rw [← firstBytes_congr hcopy] at h2
  have hsp := (c84_spec hr hk a ha (firstBytes nonce.data nb) (by simp; omega) _ _).2 h2
  by_cases hne : b + a = a → a = 0
  · obtain ⟨m2', ok, e, -, -, hs, -, -⟩ := c84_decrypt_partial hr hk nonce nb a hnb hns ha al2 (b + a) m2 hne hlt hS2 (by omega)
    obtain ⟨hok, hM⟩ := hs _ hsp
    rw [Nat.add_sub_cancel] at hM
    exact ⟨m2', by rw [e, hok], hM⟩
  · have hb : b = 0 := by omega
    subst hb
    refine ⟨m2, ?_, by simp [firstBytes]⟩
    obtain ⟨t, e0, ht⟩ := vHashN hr hk nonce hnb hns ha
    rw [dec, if_neg (by omega), e0]
    simp only [Res.bind_ok]
    have hsz : a ≤ (if al2 then m2.dst else m2.src).size := by cases al2 <;> simp [ssize] at hS2 ⊢ <;> omega
    have hdat : (if al2 then m2.dst else m2.src).data = sdat al2 m2 := by cases al2 <;> rfl
    rw [if_pos (by omega), ldPart_ok (by omega) ha]
    simp only [Res.bind_ok, hdat]
    rw [zeroPad_eq _ a _ (subU_eq ha (by omega)) ha, zeroPad_eq _ a _ (subU_eq ha (by omega)) ha]
    simp only [Res.bind_ok, Res.pure_eq]
    congr 2
    rw [isZero_iff]
    intro i
    simp only [bandnot]
    by_cases hi : i.1 < a
    · rw [if_pos hi, if_pos hi, if_pos hi, Nat.zero_add]
      have := congrArg (fun l => l.getD i.1 0) h2
      simp only [Nat.zero_add] at this
      rw [firstBytes_getD hi, AezSpec.encrypt, if_pos (by simp [firstBytes]), ← vEmptyTag hr hk ht, List.getD_eq_getElem?_getD, List.getElem?_take_of_lt hi,
        List.getElem?_ofFn, dif_pos i.2] at this
      rw [this]
      simp
    · rw [if_neg hi, if_neg hi]
      simp

/-- C84: `aez_decrypt` returns 0 exactly for the encryptions of the non-empty messages, when the ciphertext is longer than the authentication bytes. -/
theorem c84_authentic_partial (nonce : Buf) (nb a : Nat) (hnb : nb ≤ 16) (hns : nb ≤ nonce.size) (ha : a ≤ 16) (al : Bool) (n : Nat) (m : Mem)
    (hne : a < n) (hlt : n < 4294967296) (hS : n ≤ ssize al m) (hD : n - a ≤ m.dst.size) :
    ∃ m' ok, dec R (ctxOf key) nonce nb a al n m = .ok (m', ok) ∧
      (ok = true ↔ ∃ M, firstBytes (sdat al m) n = AezSpec.encrypt r (AezSpec.key key) a (firstBytes nonce.data nb) M) := by
  obtain ⟨m', ok, e, -, -, h1, h2, -⟩ := c84_decrypt_partial hr hk nonce nb a hnb hns ha al n m (by omega) hlt hS hD
  refine ⟨m', ok, e, ?_, ?_⟩
  · intro hok
    cases hsp : AezSpec.decrypt r (AezSpec.key key) a (firstBytes nonce.data nb) (firstBytes (sdat al m) n) with
    | none => rw [(h2 hsp).1] at hok; cases hok
    | some M => exact ⟨M, (c84_spec hr hk a ha _ (by simp; omega) _ _).1 hsp⟩
  · rintro ⟨M, hM⟩
    exact (h1 M ((c84_spec hr hk a ha _ (by simp; omega) _ _).2 hM)).1

/-! ## The empty message -/

/-- C84, the missing part: a ciphertext exactly as long as the authentication bytes is accepted when each of its one bits is a one bit of the tag. -/
theorem c84_empty (nonce : Buf) (nb a : Nat) (hnb : nb ≤ 16) (hns : nb ≤ nonce.size) (ha : a ≤ 16) (al : Bool) (m : Mem) (hS : a ≤ ssize al m) :
    ∃ ok, dec R (ctxOf key) nonce nb a al a m = .ok (m, ok) ∧
      (ok = true ↔ ∀ i, i < a → sdat al m i &&& (AezSpec.prf r (AezSpec.key key) a (firstBytes nonce.data nb)).getD i 0 = sdat al m i) := by
  obtain ⟨t, e0, ht⟩ := vHashN hr hk nonce hnb hns ha
  rw [dec, if_neg (by omega), e0]
  simp only [Res.bind_ok]
  have hsz : a ≤ (if al then m.dst else m.src).size := by cases al <;> simp [ssize] at hS ⊢ <;> omega
  have hdat : (if al then m.dst else m.src).data = sdat al m := by cases al <;> rfl
  rw [if_pos trivial, ldPart_ok (by omega) ha]
  simp only [Res.bind_ok, hdat]
  rw [zeroPad_eq _ a _ (subU_eq ha (by omega)) ha, zeroPad_eq _ a _ (subU_eq ha (by omega)) ha]
  simp only [Res.bind_ok, Res.pure_eq]
  refine ⟨_, rfl, ?_⟩
  have hbit : ∀ x y : UInt8, (~~~x &&& y = 0) ↔ y &&& x = y := by
    intro x y
    constructor
    · intro h
      have : y = (x &&& y) ||| (~~~x &&& y) := by
        apply UInt8.eq_of_toBitVec_eq
        ext j hj
        simp
        cases x.toBitVec[j] <;> simp
      rw [h, UInt8.or_zero] at this
      rw [UInt8.and_comm]; exact this.symm
    · intro h
      rw [← h]
      apply UInt8.eq_of_toBitVec_eq
      ext j hj
      simp
      intro h1 _
      exact h1
  have htag : ∀ i : Fin 16, i.1 < a → emptyTag R (ctxOf key) t i = (AezSpec.prf r (AezSpec.key key) a (firstBytes nonce.data nb)).getD i.1 0 := by
    intro i hi
    rw [← vEmptyTag hr hk ht, List.getD_eq_getElem?_getD, List.getElem?_take_of_lt hi, List.getElem?_ofFn, dif_pos i.2]; rfl
  rw [isZero_iff]
  constructor
  · intro h i hi
    have := h ⟨i, by omega⟩
    simp only [bandnot] at this
    rw [if_pos hi, if_pos hi, if_pos hi, Nat.zero_add, htag ⟨i, by omega⟩ hi] at this
    exact (hbit _ _).1 this
  · intro h i
    simp only [bandnot]
    by_cases hi : i.1 < a
    · rw [if_pos hi, if_pos hi, if_pos hi, Nat.zero_add, htag i hi]
      exact (hbit _ _).2 (h i.1 hi)
    · rw [if_neg hi, if_neg hi]; simp

/-- C84, the negation: the string of zeros is accepted as the encryption of the empty message, for every key, every nonce and every number of authentication
bytes. -/
theorem c84_forgery (nonce : Buf) (nb a : Nat) (hnb : nb ≤ 16) (hns : nb ≤ nonce.size) (ha : a ≤ 16) (al : Bool) (m : Mem) (hS : a ≤ ssize al m)
    (hz : ∀ i, i < a → sdat al m i = 0) : dec R (ctxOf key) nonce nb a al a m = .ok (m, true) := by
  obtain ⟨ok, e, h⟩ := c84_empty hr hk nonce nb a hnb hns ha al m hS
  rw [e, h.2 fun i hi => by rw [hz i hi]; simp]

omit hr hk in
/-- Without authentication bytes and with a nonce of 16 zero bytes, which is how `Prp` calls the two functions (C70), encryption and decryption are the
permutation and its inverse. -/
theorem c84_prp (s : Bytes) :
    AezSpec.encrypt r (AezSpec.key key) 0 (List.replicate 16 0) s = AezSpec.encipher r (AezSpec.key key) s ∧
    AezSpec.decrypt r (AezSpec.key key) 0 (List.replicate 16 0) s = some (AezSpec.decipher r (AezSpec.key key) s) := by
  have hD : AezSpec.deltaN r (AezSpec.key key) 0 (List.replicate 16 0) = AezSpec.delta r (AezSpec.key key) := by
    rw [AezSpec.deltaN, AezSpec.delta, if_pos (by simp), show beNat (List.replicate 16 0) = 0 from by decide +kernel]
  have hp : AezSpec.prf r (AezSpec.key key) 0 (List.replicate 16 0) = [] := by simp [AezSpec.prf]
  have hl := decipherD_length (r := r) (key := key) (AezSpec.delta r (AezSpec.key key)) s
  constructor
  · rw [AezSpec.encrypt, hD, AezSpec.encipher]
    by_cases hs : s = []
    · rw [if_pos hs, hp, hs, AezSpec.encipherD, if_pos (by simp)]
    · rw [if_neg hs]; simp
  · rw [AezSpec.decrypt, hD, AezSpec.decipher, if_neg (by omega), hp]
    by_cases hs : s = []
    · subst hs; simp [AezSpec.decipherD]
    · rw [if_neg (by simpa using hs)]
      simp only [Nat.sub_zero]
      rw [List.drop_of_length_le (by omega), List.take_of_length_le (by omega)]
      simp

end

/-! ## Concrete cases -/

/-- A nonce of 12 bytes, a message of 100 bytes and 16 authentication bytes, in place. -/
example : ∃ m', enc toyR (ctxOf exKey48) ⟨12, fun i => UInt8.ofNat i⟩ 12 16 true 100 ⟨⟨0, fun _ => 0⟩, ⟨120, fun i => UInt8.ofNat i⟩⟩ = .ok m' ∧
    firstBytes m'.dst.data 116 = AezSpec.encrypt (roundNat toyR) (AezSpec.key exKey48) 16 (firstBytes (fun i => UInt8.ofNat i) 12)
      (firstBytes (fun i => UInt8.ofNat i) 100) ∧ m'.dst.data 118 = 118 := by
  obtain ⟨m', h1, -, -, h2, h3⟩ := c84_encrypt_partial (roundNat_eq toyR) (key := exKey48) (by decide) ⟨12, fun i => UInt8.ofNat i⟩ 12 16 (by decide)
    (by decide) (by decide) true 100 ⟨⟨0, fun _ => 0⟩, ⟨120, fun i => UInt8.ofNat i⟩⟩ (by decide) (by decide) (by decide)
  exact ⟨m', h1, h2, h3 118 (by decide)⟩

/-- A message of 40 bytes in a buffer of 40 bytes, with 16 authentication bytes. -/
example : enc toyR (ctxOf exKey48) ⟨12, fun i => UInt8.ofNat i⟩ 12 16 false 40 ⟨⟨40, fun _ => 7⟩, ⟨56, fun _ => 0⟩⟩ = .ub :=
  c84_overread (roundNat_eq toyR) (key := exKey48) (by decide) ⟨12, fun i => UInt8.ofNat i⟩ 12 16 (by decide) (by decide) (by decide) 40
    ⟨⟨40, fun _ => 7⟩, ⟨56, fun _ => 0⟩⟩ (by decide) (by decide) (by decide) (by decide) (by decide) (by decide)

example (m : Mem) : enc toyR (ctxOf exKey48) ⟨12, fun i => UInt8.ofNat i⟩ 12 16 false 4294967290 m = .ub :=
  c84_wrap (roundNat_eq toyR) (key := exKey48) (by decide) ⟨12, fun i => UInt8.ofNat i⟩ 12 16 (by decide) (by decide) (by decide) false 4294967290 m
    (by decide) (by decide)

/-- A ciphertext of 40 bytes that is not an encryption is rejected, one that is is accepted. -/
example : ∃ m' ok, dec toyR (ctxOf exKey48) ⟨5, fun _ => 3⟩ 5 8 false 40 ⟨⟨40, fun _ => 7⟩, ⟨32, fun _ => 0⟩⟩ = .ok (m', ok) ∧
    (ok = true ↔ ∃ M, firstBytes (fun _ => 7) 40 = AezSpec.encrypt (roundNat toyR) (AezSpec.key exKey48) 8 (firstBytes (fun _ => 3) 5) M) :=
  c84_authentic_partial (roundNat_eq toyR) (key := exKey48) (by decide) ⟨5, fun _ => 3⟩ 5 8 (by decide) (by decide) (by decide) false 40
    ⟨⟨40, fun _ => 7⟩, ⟨32, fun _ => 0⟩⟩ (by decide) (by decide) (by decide) (by decide)

example : ∃ m' ok, dec toyR (ctxOf exKey48) ⟨5, fun _ => 3⟩ 5 8 false 20 ⟨⟨20, fun _ => 7⟩, ⟨12, fun _ => 1⟩⟩ = .ok (m', ok) ∧ m'.dst.size = 12 := by
  obtain ⟨m', ok, h1, -, h2, -⟩ := c84_decrypt_partial (roundNat_eq toyR) (key := exKey48) (by decide) ⟨5, fun _ => 3⟩ 5 8 (by decide) (by decide) (by decide)
    false 20 ⟨⟨20, fun _ => 7⟩, ⟨12, fun _ => 1⟩⟩ (by decide) (by decide) (by decide) (by decide)
  exact ⟨m', ok, h1, h2⟩

example : AezSpec.decrypt (roundNat toyR) (AezSpec.key exKey48) 4 [1, 2] (AezSpec.encrypt (roundNat toyR) (AezSpec.key exKey48) 4 [1, 2] [9, 8, 7]) = some [9, 8, 7] :=
  (c84_spec (roundNat_eq toyR) (key := exKey48) (by decide) 4 (by decide) [1, 2] (by decide) _ _).2 rfl

example (m2 : Mem) (h1 : 56 ≤ m2.src.size) (h2 : 40 ≤ m2.dst.size) :
    ∃ m', enc toyR (ctxOf exKey48) ⟨16, fun _ => 3⟩ 16 16 true 40 ⟨⟨0, fun _ => 7⟩, ⟨56, fun i => UInt8.ofNat i⟩⟩ = .ok m' ∧
      ((∀ i, i < 56 → m2.src.data i = m'.dst.data i) →
        ∃ m2', dec toyR (ctxOf exKey48) ⟨16, fun _ => 3⟩ 16 16 false 56 m2 = .ok (m2', true) ∧
          firstBytes m2'.dst.data 40 = firstBytes (fun i => UInt8.ofNat i) 40) :=
  c84_roundtrip (roundNat_eq toyR) (key := exKey48) (by decide) ⟨16, fun _ => 3⟩ 16 16 (by decide) (by decide) (by decide) true false 40
    ⟨⟨0, fun _ => 7⟩, ⟨56, fun i => UInt8.ofNat i⟩⟩ m2 (by decide) (by decide) (by decide) h1 h2

/-- The string of 16 zeros is accepted; the specification rejects it. -/
theorem c84_forgery_concrete :
    dec toyR (ctxOf exKey48) ⟨2, fun _ => 1⟩ 2 16 false 16 ⟨⟨16, fun _ => 0⟩, ⟨0, fun _ => 0⟩⟩ = .ok (⟨⟨16, fun _ => 0⟩, ⟨0, fun _ => 0⟩⟩, true) ∧
      AezSpec.decrypt (roundNat toyR) (AezSpec.key exKey48) 16 [1, 1] (List.replicate 16 0) = none :=
  ⟨c84_forgery (roundNat_eq toyR) (key := exKey48) (by decide) ⟨2, fun _ => 1⟩ 2 16 (by decide) (by decide) (by decide) false
      ⟨⟨16, fun _ => 0⟩, ⟨0, fun _ => 0⟩⟩ (by decide) (fun _ _ => rfl), by decide +kernel⟩

example : ∃ ok, dec toyR (ctxOf exKey48) ⟨2, fun _ => 1⟩ 2 2 false 2 ⟨⟨2, fun _ => 4⟩, ⟨0, fun _ => 0⟩⟩ = .ok (⟨⟨2, fun _ => 4⟩, ⟨0, fun _ => 0⟩⟩, ok) ∧
    (ok = true ↔ ∀ i, i < 2 → 4 &&& (AezSpec.prf (roundNat toyR) (AezSpec.key exKey48) 2 (firstBytes (fun _ => 1) 2)).getD i 0 = 4) :=
  c84_empty (roundNat_eq toyR) (key := exKey48) (by decide) ⟨2, fun _ => 1⟩ 2 2 (by decide) (by decide) (by decide) false
    ⟨⟨2, fun _ => 4⟩, ⟨0, fun _ => 0⟩⟩ (by decide)

end Verif.Aez.Aead
