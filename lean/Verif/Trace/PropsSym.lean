import Verif.Trace.ModelSym
import Verif.Mac.Props
import Verif.Prg.Props
import Verif.RCPrf.Props
import Verif.Cipher.Props

/-!
# C108: what the symmetric functions show

The functions with their traces compute what the functions without traces compute; their traces depend on lengths only, except that the evaluation of a tree
shows the leaf.
-/

namespace Verif.Trace.Sym

open Verif Verif.Trace T

/-! ## Refinement -/

theorem ifT_res {α : Type} (c : Prop) [Decidable c] (a b : M α) : (ifT c a b).res = if c then a.res else b.res := rfl

@[simp] theorem tick_res (c : Bool) : (tick c).res = .ok () := rfl
@[simp] theorem wipeT_res (d : Rg) (n : Nat) : (wipeT d n).res = .ok () := rfl
@[simp] theorem thrT_res {α : Type} (e : Exc) : (thrT e : M α).res = .exc e := rfl
@[simp] theorem bad_res {α : Type} : (bad : M α).res = .ub := rfl
theorem cpyT_res (d : Rg) (buf : Bytes) (pos : Nat) (s : Rg) (off : Nat) (src : Bytes) : (cpyT d buf pos s off src).res = Mac.putAt buf pos src := rfl

/-- The iterations of `buf[i] ^= c`. -/
theorem iter_xor (r : Rg) (c : UInt8) (n : Nat) (buf : Bytes) : (iterT (xorByteT r c) n buf).res = Mac.xorFirst n c buf := by
  induction n with
  | zero => simp [iterT, Mac.xorFirst]
  | succ n ih =>
    rw [iterT, bind_res, ih]
    unfold Mac.xorFirst
    by_cases h1 : n > buf.length
    · rw [if_pos h1, if_pos (by omega)]; rfl
    · rw [if_neg h1, Res.bind_ok]
      have hl : ((buf.take n).map (· ^^^ c)).length = n := by simp; omega
      simp only [xorByteT]
      by_cases h2 : n + 1 > buf.length
      · rw [if_pos h2, List.getElem?_eq_none (by simp; omega)]
      · rw [if_neg h2, List.getElem?_append_right (by omega), hl, Nat.sub_self, List.getElem?_drop]
        have hn : n < buf.length := by omega
        rw [Nat.add_zero, List.getElem?_eq_getElem hn]
        simp only
        rw [List.set_append_right _ _ (by omega), hl, Nat.sub_self, List.drop_eq_getElem_cons hn, List.set_cons_zero, List.take_add_one,
          List.getElem?_eq_getElem hn, List.map_append, Option.toList_some, List.map_cons, List.map_nil, List.append_assoc]
        rfl

theorem forT_xor (r : Rg) (c : UInt8) (n : Nat) (buf : Bytes) : (forT (xorByteT r c) n buf).res = Mac.xorFirst n c buf := by
  rw [forT, bind_res, iter_xor]
  cases Mac.xorFirst n c buf <;> rfl

theorem blockT_res (r : Rg) (N : Nat) (k : Bytes) (pad : UInt8) (buf : Bytes) :
    (blockT r N k pad buf).res = (Mac.putAt buf 0 k >>= fun b => Mac.zeroTail N b >>= fun b => Mac.xorFirst Mac.blockSize pad b) := by
  unfold blockT
  generalize Mac.blockSize = bs
  rw [bind_res, cpyT_res]
  congr 1; funext b
  rw [bind_res]
  have : (zeroTailT r N b).res = Mac.zeroTail N b := by
    unfold zeroTailT Mac.zeroTail
    split <;> rfl
  rw [this]
  congr 1; funext b
  rw [forT_xor]

theorem bind_assoc' {α β γ : Type} (x : Res α) (f : α → Res β) (g : β → Res γ) : ((x >>= f) >>= g) = (x >>= fun a => f a >>= g) := by
  cases x <;> rfl

theorem hmacT_res (H : Bytes → Bytes) (junk : Nat → UInt8) (N : Nat) (key : Option Bytes) (ri : Rg) (inp : Option Bytes) (outNull : Bool)
    (outOff outLen : Nat) : (hmacT H junk N key ri inp outNull outOff outLen).res = Mac.hmac H junk N key inp outNull outLen := by
  unfold hmacT Mac.hmac
  rw [ifT_res]
  split
  · rfl
  rw [ifT_res]
  cases inp with
  | none => rfl
  | some m =>
    rw [if_neg (by simp), ifT_res]
    simp only
    split
    · rfl
    rw [ifT_res]
    cases key with
    | none => rfl
    | some k =>
      rw [if_neg (by simp)]
      simp only [Option.getD_some]
      unfold hmacMainT
      rw [bind_res, ifT_res]
      have : (if Mac.blockSize + m.length > Mac.digestSize then (pure (Mac.blockSize + m.length) : M Nat).res else (pure Mac.digestSize : M Nat).res) =
          .ok (if Mac.blockSize + m.length > Mac.digestSize then Mac.blockSize + m.length else Mac.digestSize) := by split <;> rfl
      rw [this, Res.bind_ok]
      generalize (if Mac.blockSize + m.length > Mac.digestSize then Mac.blockSize + m.length else Mac.digestSize) = bl
      simp only [bind_res, blockT_res, cpyT_res, hashT, bind_assoc', wipeT_res, Res.bind_ok, pure_res]

theorem prfBodyT_res (H : Bytes → Bytes) (junk : Nat → UInt8) (key : Option Bytes) (m : Bytes) (nb pos i : Nat) (result : Bytes) :
    (prfBodyT H junk key m nb pos i result).res =
      (Mac.hmac H junk 32 key (some (m ++ [UInt8.ofNat i])) false (if nb - pos ≥ Mac.digestSize then Mac.digestSize else nb - pos) >>= fun d =>
        Mac.putAt result pos d) := by
  unfold prfBodyT
  simp only [bind_res, tick_res, Res.bind_ok, ifT_res, hmacT_res]
  split <;> rfl

theorem prfLoopT_res (H : Bytes → Bytes) (junk : Nat → UInt8) (key : Option Bytes) (m : Bytes) (nb : Nat) (fuel : Nat) (pos i : Nat) (result : Bytes) :
    (prfLoopT H junk key m nb fuel pos i result).map T.res = Mac.prfLoop H junk key m nb fuel pos i result := by
  induction fuel generalizing pos i result with
  | zero => rfl
  | succ fuel ih =>
    rw [prfLoopT, Mac.prfLoop]
    by_cases h : pos < nb
    · rw [if_pos h, if_pos h]
      simp only
      rw [prfBodyT_res]
      generalize (Mac.hmac H junk 32 key (some (m ++ [UInt8.ofNat i])) false (if nb - pos ≥ Mac.digestSize then Mac.digestSize else nb - pos) >>= fun d =>
        Mac.putAt result pos d) = x
      cases x with
      | ok r => simp only; rw [← ih, Option.map_map]; rfl
      | exc e => rfl
      | ub => rfl
    · rw [if_neg h, if_neg h]; rfl

theorem prfT_res (H : Bytes → Bytes) (junk : Nat → UInt8) (key : Option Bytes) (nb fuel : Nat) (inp : Option Bytes) :
    (prfT H junk key nb fuel inp).map T.res = Mac.prf H junk key nb fuel inp := by
  unfold prfT Mac.prf
  cases inp with
  | none => rfl
  | some m =>
    simp only
    split
    · rw [← prfLoopT_res, Option.map_map]; rfl
    · simp only [Option.map_some, hmacT_res]

theorem prgT_res (B : Bytes → Nat → Nat → UInt8) (rk : Rg) (key : Bytes) (offset len : Nat) (ro : Rg) (outNull : Bool) :
    (prgT B rk key offset len ro outNull).res = Prg.prgDerivation B key offset len outNull := by
  unfold prgT Prg.prgDerivation
  rw [ifT_res]
  split
  · rfl
  rw [ifT_res]
  split
  · rfl
  rw [bind_res, wipeT_res, Res.bind_ok, ifT_res]
  simp only
  split
  · rfl
  unfold prgSplitT
  simp only
  generalize (len + offset + (W64 - 1)) % W64 / 64 + 1 = q
  rw [bind_res, wipeT_res, Res.bind_ok, bind_res]
  have h1 : ∀ (c c' : Prop) [Decidable c] [Decidable c'] (x : M Bytes) (y : Bytes) (f : Bytes → Nat × Bytes) (z : Nat × Bytes), x.res = .ok y →
      (ifT c (if c' then bad else do
        let x ← x
        pure (f x)) (pure z)).res = if c then (if c' then Res.ub else .ok (f y)) else .ok z := by
    intro c c' _ _ x y f z hx
    rw [ifT_res]
    split
    · split
      · rfl
      · rw [bind_res, hx]; rfl
    · rfl
  rw [h1 _ _ (chachaT B rk key ((offset / 64 + 1) % W64) ro (64 - offset % 64) (List.drop (64 - offset % 64) (List.replicate len 0))) _
    (fun x => (64 - offset % 64, List.take (64 - offset % 64) (List.replicate len 0) ++ x)) _ rfl]
  congr 1
  funext p
  rw [bind_res, chachaT, Res.bind_ok, bind_res]
  simp only [bind_res, wipeT_res, Res.bind_ok, pure_res]
  generalize Prg.xorIc B key (offset / 64) (List.replicate 64 0) = buf
  split <;> rfl

theorem deriveT_res (B : Bytes → Nat → Nat → UInt8) (key : Option Bytes) (offset len : Nat) (ro : Rg) (outNull : Bool) :
    (deriveT B key offset len ro outNull).res = Prg.derive B key offset len outNull := by
  unfold deriveT Prg.derive
  rw [ifT_res]
  split
  · rfl
  rw [ifT_res]
  cases key with
  | none => rfl
  | some k => rw [if_neg (by simp), prgT_res]; rfl

theorem tooLargeT_res (K cnt : Nat) : (tooLargeT K cnt).res = .ok (Prg.tooLarge K cnt) := by
  unfold tooLargeT Prg.tooLarge
  simp only [ifT_res, pure_res]
  by_cases h : cnt > 0
  · by_cases h' : K ≥ (W64 - 1) / cnt
    · rw [if_pos h, if_pos h', decide_eq_true h, decide_eq_true h']; rfl
    · rw [if_pos h, if_neg h', decide_eq_true h, decide_eq_false h']; rfl
  · rw [if_neg h, decide_eq_false h]; rfl

theorem deriveKeyT_res (B : Bytes → Nat → Nat → UInt8) (key : Option Bytes) (off d : Nat) : (deriveKeyT B key off d).res = Prg.deriveKey B 32 key off := by
  unfold deriveKeyT Prg.deriveKey
  rw [bind_res, tooLargeT_res, Res.bind_ok]
  split
  · rfl
  · exact deriveT_res ..

theorem sDeriveT_res (B : Bytes → Nat → Nat → UInt8) (d : Nat) (key : Bytes) (offset len : Nat) (ro : Rg) :
    (sDeriveT B d key offset len ro).res = (Prg.sDerive B (some key) offset len false).1 := by
  unfold sDeriveT
  rw [bind_res, tick_res, Res.bind_ok, prgT_res]; rfl

theorem sDeriveKeyT_res (B : Bytes → Nat → Nat → UInt8) (d : Nat) (key : Bytes) (off : Nat) :
    (sDeriveKeyT B d key off).res = (Prg.sDeriveKey B 32 (some key) off).1 := by
  unfold sDeriveKeyT Prg.sDeriveKey
  rw [bind_res, tooLargeT_res, Res.bind_ok]
  split
  · rfl
  · exact sDeriveT_res ..

/-! ### The tree -/

open RCPrf in
theorem deriveKey_child (B : Bytes → Nat → Nat → UInt8) (k : Bytes) (c : Bool) :
    Prg.deriveKey B 32 (some k) c.toNat = .ok (childKey (Prg.stream B) k c) ∧ (Prg.sDeriveKey B 32 (some k) c.toNat).1 = .ok (childKey (Prg.stream B) k c) := by
  have hc : c.toNat ≤ 1 := by cases c <;> simp
  have ht : Prg.tooLarge 32 c.toNat = false := by
    unfold Prg.tooLarge
    cases c
    · rw [Bool.toNat_false, decide_eq_false (by omega), Bool.false_and]
    · rw [Bool.toNat_true, decide_eq_false (p := 32 ≥ _) (by omega), Bool.and_false]
  have hm : c.toNat * 32 % W64 = c.toNat * 32 := Nat.mod_eq_of_lt (by omega)
  have hw := Prg.c12_window B k (c.toNat * 32) 32 (by omega) (by omega)
  constructor
  · unfold Prg.deriveKey
    rw [ht, hm, if_neg Bool.false_ne_true]; exact hw.1
  · unfold Prg.sDeriveKey
    rw [ht, hm, if_neg Bool.false_ne_true]; exact hw.2.2.2.1

theorem childT_res (h leaf d : Nat) : (childT h leaf d).res = Bool.toNat <$> RCPrf.getChild h leaf d := rfl

theorem pathT_res (B : Bytes → Nat → Nat → UInt8) (h leaf s i : Nat) (key : Bytes) :
    (pathT B h leaf s i key).res = (List.range' i s).foldlM (fun key i => do
      let c ← RCPrf.getChild h leaf i
      pure (RCPrf.childKey (Prg.stream B) key c)) key := by
  induction s generalizing i key with
  | zero => rfl
  | succ s ih =>
    rw [pathT, bind_res, tick_res, Res.bind_ok, bind_res, childT_res, List.range'_succ, List.foldlM_cons]
    cases RCPrf.getChild h leaf i with
    | ok c =>
      show (sDeriveKeyT B i key c.toNat >>= fun key => pathT B h leaf s (i + 1) key).res = _
      rw [bind_res, sDeriveKeyT_res, (deriveKey_child B key c).2, Res.bind_ok, ih]
      rfl
    | exc e => rfl
    | ub => rfl

theorem deriveLeafT_res (B : Bytes → Nat → Nat → UInt8) (n h : Nat) (k : Bytes) (d leaf : Nat) (hn : n < 65536) :
    (deriveLeafT B n h k d leaf).res = RCPrf.deriveLeaf (Prg.stream B) n h k d leaf := by
  have hw : ∀ (key : Bytes) (c : Bool), Prg.derive B (some key) (c.toNat * n) n false = .ok (RCPrf.leafValue (Prg.stream B) n key c) ∧
      (Prg.sDerive B (some key) (c.toNat * n) n false).1 = .ok (RCPrf.leafValue (Prg.stream B) n key c) := by
    intro key c
    have hm : c.toNat * n < W64 := by
      cases c
      · rw [Bool.toNat_false]; omega
      · rw [Bool.toNat_true]; omega
    have hw := Prg.c12_window B key (c.toNat * n) n hm (by omega)
    exact ⟨hw.1, hw.2.2.2.1⟩
  unfold deriveLeafT RCPrf.deriveLeaf
  split
  · rfl
  split
  · rfl
  rw [ifT_res]
  split
  · rw [bind_res, childT_res]
    cases RCPrf.getChild h leaf d with
    | ok c =>
      show (deriveT B (some k) (c.toNat * n) n .out false).res = _
      rw [deriveT_res, (hw k c).1]; rfl
    | exc e => rfl
    | ub => rfl
  · rw [bind_res, childT_res]
    cases RCPrf.getChild h leaf d with
    | exc e => rfl
    | ub => rfl
    | ok c =>
      show (deriveKeyT B (some k) c.toNat (d + 1) >>= _).res = _
      rw [bind_res, deriveKeyT_res, (deriveKey_child B k c).1, Res.bind_ok, bind_res, pathT_res]
      simp only [Res.bind_ok]
      congr 1; funext key
      rw [bind_res, childT_res]
      cases RCPrf.getChild h leaf (h - 2) with
      | exc e => rfl
      | ub => rfl
      | ok c =>
        show (sDeriveT B (h - 2) key (c.toNat * n) n .out).res = _
        rw [sDeriveT_res, (hw key c).2]; rfl

/-! ### Cipher -/

theorem encryptT_res (P : Cipher.Prims) (key : Option Bytes) (salt inp : Bytes) (len : Nat) (out : Bytes) :
    (encryptT P key salt inp len out).res = Cipher.encryptBuf P key salt inp len out := by
  unfold encryptT Cipher.encryptBuf
  rw [bind_res]
  congr 1; funext out1
  rw [ifT_res]
  cases key with
  | none => rfl
  | some k =>
    rw [if_neg (by simp)]
    simp only [bind_res, Option.getD_some, kdfT, sliceT, Res.bind_ok, wipeT_res, pure_res]
    congr 1; funext s
    congr 1; funext m
    congr 1; funext nonce
    cases Mac.putAt out1 Cipher.nonceSize (P.enc (P.kdf k s) nonce m) <;> rfl

theorem decryptT_res (P : Cipher.Prims) (key : Option Bytes) (inp : Bytes) (len : Nat) (out : Bytes) :
    (decryptT P key inp len out).res = Cipher.decryptBuf P key inp len out := by
  unfold decryptT Cipher.decryptBuf
  rw [ifT_res]
  split
  · rfl
  rw [ifT_res]
  cases key with
  | none => rfl
  | some k =>
    rw [if_neg (by simp)]
    simp only [bind_res, Option.getD_some, kdfT, sliceT, Res.bind_ok]
    congr 1; funext s
    congr 1; funext m
    congr 1; funext nonce
    cases P.dec (P.kdf k s) nonce m with
    | none => rfl
    | some m =>
      simp only [bind_res, wipeT_res, tick_res, Res.bind_ok, pure_res]
      cases Mac.putAt out 0 m <;> rfl

/-! ## The traces depend on lengths only -/

/-- Byte strings of the same length. -/
abbrev SameLen (a b : Bytes) : Prop := a.length = b.length

theorem resRel_putAt {b b' s s' : Bytes} (pos : Nat) (hb : SameLen b b') (hs : SameLen s s') : ResRel SameLen (Mac.putAt b pos s) (Mac.putAt b' pos s') := by
  unfold Mac.putAt
  have hb' : b.length = b'.length := hb
  have hs' : s.length = s'.length := hs
  rw [hb', hs']
  split
  · trivial
  · show List.length _ = List.length _
    simp [hb', hs']

theorem rel_cpy {b b' s s' : Bytes} (d : Rg) (pos : Nat) (r : Rg) (off : Nat) (hb : SameLen b b') (hs : SameLen s s') :
    Rel SameLen (cpyT d b pos r off s) (cpyT d b' pos r off s') :=
  ⟨by have : s.length = s'.length := hs
      simp only [cpyT, this], resRel_putAt pos hb hs⟩

theorem rel_wipe (d : Rg) (n : Nat) : Rel (fun _ _ => True) (wipeT d n) (wipeT d n) := ⟨rfl, trivial⟩
theorem rel_tick (c : Bool) : Rel (fun _ _ => True) (tick c) (tick c) := ⟨rfl, trivial⟩
theorem rel_thr {α β : Type} {P : α → β → Prop} (e : Exc) : Rel P (thrT e : M α) (thrT e : M β) := ⟨rfl, rfl⟩
theorem rel_bad {α β : Type} {P : α → β → Prop} : Rel P (bad : M α) (bad : M β) := ⟨rfl, trivial⟩

theorem rel_xorByte {b b' : Bytes} (r : Rg) (c : UInt8) (i : Nat) (hb : SameLen b b') : Rel SameLen (xorByteT r c i b) (xorByteT r c i b') := by
  have hb' : b.length = b'.length := hb
  refine ⟨rfl, ?_⟩
  unfold xorByteT
  by_cases h : i < b.length
  · rw [List.getElem?_eq_getElem h, List.getElem?_eq_getElem (by omega)]
    show List.length _ = List.length _
    simp [hb']
  · rw [List.getElem?_eq_none (by omega), List.getElem?_eq_none (by omega)]
    trivial

theorem rel_zeroTail {b b' : Bytes} (r : Rg) (N : Nat) (hb : SameLen b b') : Rel SameLen (zeroTailT r N b) (zeroTailT r N b') := by
  unfold zeroTailT
  split
  · exact ⟨rfl, resRel_putAt _ hb rfl⟩
  · exact Rel.pure hb

theorem rel_block {k k' b b' : Bytes} (r : Rg) (N : Nat) (pad : UInt8) (hk : SameLen k k') (hb : SameLen b b') :
    Rel SameLen (blockT r N k pad b) (blockT r N k' pad b') := by
  unfold blockT
  refine Rel.bind (rel_cpy r 0 .key 0 hb hk) fun b b' hb => Rel.bind (rel_zeroTail r N hb) fun b b' hb => ?_
  exact Rel.forT (fun i b b' hb => rel_xorByte r pad i hb) _ hb

/-- The contract of the hash function: 64 bytes. -/
def Hash64 (H : Bytes → Bytes) : Prop := ∀ x, (H x).length = 64

theorem rel_hash {H H' : Bytes → Bytes} (hH : Hash64 H) (hH' : Hash64 H') {b b' : Bytes} (r : Rg) (s s' : Bytes) (n : Nat) (hb : SameLen b b') :
    Rel SameLen (hashT H r s n b) (hashT H' r s' n b') :=
  ⟨rfl, resRel_putAt 0 hb ((hH _).trans (hH' _).symm)⟩

theorem rawBuf_len (junk junk' : Nat → UInt8) (n : Nat) : SameLen (Mac.rawBuf junk n) (Mac.rawBuf junk' n) := by
  show List.length _ = List.length _
  simp [Mac.rawBuf]

theorem rel_hmacMain {H H' : Bytes → Bytes} (hH : Hash64 H) (hH' : Hash64 H') (junk junk' : Nat → UInt8) (N : Nat) {k k' m m' : Bytes} (ri : Rg)
    (hk : SameLen k k') (hm : SameLen m m') (outOff outLen : Nat) :
    Rel SameLen (hmacMainT H junk N k ri m outOff outLen) (hmacMainT H' junk' N k' ri m' outOff outLen) := by
  unfold hmacMainT
  have hm' : m.length = m'.length := hm
  rw [← hm']
  refine Rel.bind (P := fun a b => a = b) (Rel.ifT Iff.rfl (fun _ => Rel.pure rfl) (fun _ => Rel.pure rfl)) ?_
  rintro bl _ rfl
  refine Rel.bind (rel_block .buf N 0x36 hk (rawBuf_len junk junk' bl)) fun b b' hb => ?_
  refine Rel.bind (rel_cpy .buf _ ri 0 hb hm) fun b b' hb => ?_
  refine Rel.bind (rel_hash hH hH' .buf b b' _ hb) fun b b' hb => ?_
  refine Rel.bind (rel_block .tmp N 0x5c hk (rawBuf_len junk junk' _)) fun t t' ht => ?_
  have hb2 : b.length = b'.length := hb
  refine Rel.bind (rel_cpy .tmp _ .buf 0 ht (by show List.length _ = List.length _; simp [hb2])) fun t t' ht => ?_
  refine Rel.bind (rel_hash hH hH' .tmp t t' _ hb) fun b b' hb => ?_
  have hb2 : b.length = b'.length := hb
  refine Rel.bind (P := SameLen) ⟨rfl, by show List.length _ = List.length _; simp [hb2]⟩ fun r r' hr => ?_
  exact Rel.bind (rel_wipe _ _) fun _ _ _ => Rel.bind (rel_wipe _ _) fun _ _ _ => Rel.pure hr

/-- Both absent, or both present and of the same length. -/
def SameOpt : Option Bytes → Option Bytes → Prop
  | none, none => True
  | some a, some b => a.length = b.length
  | _, _ => False

theorem SameOpt.none_iff {a b : Option Bytes} (h : SameOpt a b) : a = none ↔ b = none := by
  cases a <;> cases b <;> simp [SameOpt] at *

theorem SameOpt.getD {a b : Option Bytes} (h : SameOpt a b) : SameLen (a.getD []) (b.getD []) := by
  cases a <;> cases b <;> simp [SameOpt, SameLen] at *
  exact h

theorem rel_hmac {H H' : Bytes → Bytes} (hH : Hash64 H) (hH' : Hash64 H') (junk junk' : Nat → UInt8) (N : Nat) {key key' inp inp' : Option Bytes} (ri : Rg)
    (hk : SameOpt key key') (hi : SameOpt inp inp') (outNull : Bool) (outOff outLen : Nat) :
    Rel SameLen (hmacT H junk N key ri inp outNull outOff outLen) (hmacT H' junk' N key' ri inp' outNull outOff outLen) :=
  Rel.ifT Iff.rfl (fun _ => rel_thr _) fun _ => Rel.ifT hi.none_iff (fun _ => rel_thr _) fun _ => Rel.ifT Iff.rfl (fun _ => rel_thr _) fun _ =>
    Rel.ifT hk.none_iff (fun _ => rel_thr _) fun _ => rel_hmacMain hH hH' junk junk' N ri hk.getD hi.getD outOff outLen

theorem rel_prfBody {H H' : Bytes → Bytes} (hH : Hash64 H) (hH' : Hash64 H') (junk junk' : Nat → UInt8) {key key' : Option Bytes} {m m' : Bytes}
    (hk : SameOpt key key') (hm : SameLen m m') (nb pos i : Nat) {r r' : Bytes} (hr : SameLen r r') :
    Rel SameLen (prfBodyT H junk key m nb pos i r) (prfBodyT H' junk' key' m' nb pos i r') := by
  unfold prfBodyT
  have hm' : m.length = m'.length := hm
  refine Rel.bind (rel_tick _) fun _ _ _ => ?_
  refine Rel.bind (P := SameLen) ⟨by rw [hm'], by show List.length _ = List.length _; simp [hm']⟩ fun t t' ht => ?_
  refine Rel.bind (Rel.ifT Iff.rfl (fun _ => rel_hmac hH hH' junk junk' 32 .copy hk (show SameOpt (some t) (some t') from ht) false pos _)
    (fun _ => rel_hmac hH hH' junk junk' 32 .copy hk (show SameOpt (some t) (some t') from ht) false pos _)) fun d d' hd => ?_
  exact ⟨rfl, resRel_putAt pos hr hd⟩

theorem prfLoopT_evs {H H' : Bytes → Bytes} (hH : Hash64 H) (hH' : Hash64 H') (junk junk' : Nat → UInt8) {key key' : Option Bytes} {m m' : Bytes}
    (hk : SameOpt key key') (hm : SameLen m m') (nb fuel pos i : Nat) {r r' : Bytes} (hr : SameLen r r') :
    (prfLoopT H junk key m nb fuel pos i r).map T.evs = (prfLoopT H' junk' key' m' nb fuel pos i r').map T.evs := by
  induction fuel generalizing pos i r r' with
  | zero => rfl
  | succ fuel ih =>
    have hm' : m.length = m'.length := hm
    rw [prfLoopT, prfLoopT]
    by_cases h : pos < nb
    · rw [if_pos h, if_pos h]
      have hb := rel_prfBody hH hH' junk junk' hk hm nb pos i hr
      simp only
      generalize prfBodyT H junk key m nb pos i r = x at hb
      generalize prfBodyT H' junk' key' m' nb pos i r' = y at hb
      obtain ⟨xe, xr⟩ := x
      obtain ⟨ye, yr⟩ := y
      obtain ⟨he, hr⟩ := hb
      simp only at he hr
      subst he
      cases xr <;> cases yr <;> simp only [ResRel] at hr
      · have := ih ((pos + Mac.digestSize) % 65536) ((i + 1) % 256) hr
        simp only [Option.map_map]
        rw [show (T.evs ∘ fun y : M Bytes => (⟨xe ++ y.evs, y.res⟩ : M Bytes)) = (fun l => xe ++ l) ∘ T.evs from rfl, ← Option.map_map, this, Option.map_map]
      · rfl
      · rfl
    · rw [if_neg h, if_neg h]
      simp only [Option.map_some, hm']

theorem prfT_evs {H H' : Bytes → Bytes} (hH : Hash64 H) (hH' : Hash64 H') (junk junk' : Nat → UInt8) {key key' inp inp' : Option Bytes}
    (hk : SameOpt key key') (hi : SameOpt inp inp') (nb fuel : Nat) :
    (prfT H junk key nb fuel inp).map T.evs = (prfT H' junk' key' nb fuel inp').map T.evs := by
  cases inp with
  | none =>
    rw [hi.none_iff.1 rfl]; rfl
  | some m =>
    cases inp' with
    | none => exact absurd (hi.none_iff.2 rfl) (by simp)
    | some m' =>
      have hm : m.length = m'.length := hi
      unfold prfT
      simp only
      split
      · have := prfLoopT_evs hH hH' junk junk' hk hm nb fuel 0 0 (rawBuf_len junk junk' nb)
        simp only [Option.map_map]
        rw [show (T.evs ∘ fun y : M Bytes => (⟨[Ev.br false, .br true, .rd .inp 0 m.length, .wr .copy 0 m.length] ++ y.evs, y.res⟩ : M Bytes)) =
            (fun l => [Ev.br false, .br true, .rd .inp 0 m.length, .wr .copy 0 m.length] ++ l) ∘ T.evs from rfl, ← Option.map_map, this, Option.map_map, hm]
        rfl
      · simp only [Option.map_some]
        rw [(rel_hmac hH hH' junk junk' 32 .inp hk hi false 0 nb).evs]

/-! ### The stream -/

theorem xorIc_len (B : Bytes → Nat → Nat → UInt8) (k : Bytes) (ic : Nat) (m : Bytes) : (Prg.xorIc B k ic m).length = m.length := by simp [Prg.xorIc]

theorem rel_chacha (B B' : Bytes → Nat → Nat → UInt8) (rk : Rg) (k k' : Bytes) (ic ic' : Nat) (r : Rg) (off : Nat) {m m' : Bytes} (hm : SameLen m m') :
    Rel SameLen (chachaT B rk k ic r off m) (chachaT B' rk k' ic' r off m') := by
  have hm' : m.length = m'.length := hm
  exact ⟨by simp only [chachaT, hm'], by show List.length _ = List.length _; rw [xorIc_len, xorIc_len, hm']⟩

theorem rel_prgSplit (B B' : Bytes → Nat → Nat → UInt8) (rk : Rg) (k k' : Bytes) (offset len : Nat) (ro : Rg) :
    Rel SameLen (prgSplitT B rk k offset len ro) (prgSplitT B' rk k' offset len ro) := by
  unfold prgSplitT
  simp only
  generalize (len + offset + (W64 - 1)) % W64 / 64 + 1 = q
  generalize (q + W64 - offset / 64) % W64 = bl
  generalize (offset / 64 + 1) % W64 = nx
  refine Rel.bind (rel_wipe _ _) fun _ _ _ => ?_
  refine Rel.bind (P := fun p p' => p.1 = p'.1 ∧ SameLen p.2 p'.2) (Rel.ifT Iff.rfl (fun _ => Rel.iff Iff.rfl (fun _ => rel_bad) fun _ => ?_)
    fun _ => Rel.pure ⟨rfl, rfl⟩) ?_
  · exact Rel.bind (rel_chacha B B' rk k k' nx nx ro _ rfl) fun x x' hx => Rel.pure ⟨rfl, by
      have hx' : x.length = x'.length := hx
      show List.length _ = List.length _
      simp [hx']⟩
  · rintro ⟨p, o⟩ ⟨p', o'⟩ ⟨hp, ho⟩
    simp only at hp ho
    subst hp
    have ho' : o.length = o'.length := ho
    refine Rel.bind (rel_chacha B B' rk k k' _ _ .tmp 0 rfl) fun b b' hb => ?_
    have hb' : b.length = b'.length := hb
    refine Rel.bind (P := SameLen) ⟨rfl, ?_⟩ fun r r' hr => Rel.bind (rel_wipe _ _) fun _ _ _ => Rel.pure hr
    simp only
    split
    · trivial
    · show List.length _ = List.length _
      simp [hb', ho']

theorem rel_prg (B B' : Bytes → Nat → Nat → UInt8) (rk : Rg) (k k' : Bytes) (offset len : Nat) (ro : Rg) (outNull : Bool) :
    Rel SameLen (prgT B rk k offset len ro outNull) (prgT B' rk k' offset len ro outNull) :=
  Rel.ifT Iff.rfl (fun _ => rel_thr _) fun _ => Rel.ifT Iff.rfl (fun _ => Rel.pure rfl) fun _ => Rel.bind (rel_wipe _ _) fun _ _ _ =>
    Rel.ifT Iff.rfl (fun _ => rel_chacha B B' rk k k' _ _ ro 0 rfl) fun _ => rel_prgSplit B B' rk k k' offset len ro

theorem rel_derive (B B' : Bytes → Nat → Nat → UInt8) {key key' : Option Bytes} (hk : key = none ↔ key' = none) (offset len : Nat) (ro : Rg) (outNull : Bool) :
    Rel SameLen (deriveT B key offset len ro outNull) (deriveT B' key' offset len ro outNull) :=
  Rel.ifT Iff.rfl (fun _ => Rel.pure rfl) fun _ => Rel.ifT hk (fun _ => rel_thr _) fun _ => rel_prg B B' .key _ _ offset len ro outNull

/-! ### Encryption -/

theorem resRel_slice {b b' : Bytes} (off n : Nat) (hb : SameLen b b') : ResRel SameLen (Cipher.slice b off n) (Cipher.slice b' off n) := by
  unfold Cipher.slice
  have hb' : b.length = b'.length := hb
  rw [hb']
  split
  · trivial
  · show List.length _ = List.length _
    simp [hb']

/-- The contract of the encryption: a tag of 16 bytes. -/
def Enc16 (P : Cipher.Prims) : Prop := ∀ k n m, (P.enc k n m).length = m.length + 16

/-- The contract of the decryption: an accepted text loses the tag. -/
def Dec16 (P : Cipher.Prims) : Prop := ∀ k n c m, P.dec k n c = some m → c.length = m.length + 16

theorem rel_encrypt {P P' : Cipher.Prims} (hP : Enc16 P) (hP' : Enc16 P') {key key' : Option Bytes} (hk : key = none ↔ key' = none)
    {salt salt' inp inp' out out' : Bytes} (hs : SameLen salt salt') (hi : SameLen inp inp') (ho : SameLen out out') (len : Nat) :
    Rel SameLen (encryptT P key salt inp len out) (encryptT P' key' salt' inp' len out') := by
  refine Rel.bind (P := SameLen) ⟨rfl, resRel_putAt 0 ho hs⟩ fun o o' ho => ?_
  refine Rel.ifT hk (fun _ => rel_thr _) fun _ => ?_
  refine Rel.bind (P := SameLen) ⟨rfl, resRel_slice 0 _ ho⟩ fun s s' _ => ?_
  refine Rel.bind (P := fun _ _ => True) ⟨rfl, trivial⟩ fun sub sub' _ => ?_
  refine Rel.bind (P := SameLen) ⟨rfl, resRel_slice 0 _ hi⟩ fun m m' hm => ?_
  refine Rel.bind (P := SameLen) ⟨rfl, resRel_slice 0 _ ho⟩ fun n n' _ => ?_
  have hm' : m.length = m'.length := hm
  refine Rel.bind (P := SameLen) ⟨rfl, resRel_putAt _ ho ?_⟩ fun r r' hr => Rel.bind (rel_wipe _ _) fun _ _ _ => Rel.pure hr
  show List.length _ = List.length _
  rw [hP, hP', hm']

end Verif.Trace.Sym
