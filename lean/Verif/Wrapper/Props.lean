import Verif.Wrapper.Model
import Verif.Wrapper.Spec
import Verif.Cipher.Props
import Verif.Mac.Props
import Verif.RCPrf.PropsS
import Verif.Utils.Props

/-!
# Properties C26-C29 and C60 (wrapping)
-/

namespace Verif.Wrapper

open Verif Verif.Mac Verif.Cipher

/-- A wrapper with keys of the right length (what the constructor makes, `c29_keys`). -/
structure Good (w : Wrapper) (kt ke : Bytes) : Prop where
  tag : w.tagKey = some kt
  enc : w.encKey = some ke
  ktlen : kt.length = 32

/-! ## Helper lemmas -/

theorem prf1_eq {H : Bytes → Bytes} (hH : ∀ m, (H m).length = 64) (junk : Nat → UInt8) (k m : Bytes) (hk : k.length = 32)
    (nb : Nat) (hnb : nb ≤ 64) : prf1 H junk (some k) nb m = .ok ((HMAC H k m).take nb) := by
  unfold prf1 prf
  simp only
  rw [if_neg (by unfold digestSize; omega), hmac_eq hH junk 32 k m hk (by omega) nb hnb]

theorem prf1_none (H : Bytes → Bytes) (junk : Nat → UInt8) (m : Bytes) (nb : Nat) (hnb : nb ≤ 64) :
    prf1 H junk none nb m = .exc .runtimeError := by
  unfold prf1 prf
  simp only
  rw [if_neg (by unfold digestSize; omega), c16_moved_key_throws H junk 32 m nb hnb]

theorem tagOf_length {H : Bytes → Bytes} (hH : ∀ m, (H m).length = 64) (kt d : Bytes) : (tagOf H kt d).length = 12 := by
  unfold tagOf HMAC; rw [List.length_take, hH]; rfl

theorem xorStream_length (S : Bytes → Bytes → Nat → UInt8) (k n m : Bytes) : (xorStream S k n m).length = m.length := by
  simp [xorStream]

theorem xorStream_xorStream (S : Bytes → Bytes → Nat → UInt8) (k n m : Bytes) :
    xorStream S k n (xorStream S k n m) = m := by
  apply List.ext_getElem
  · simp [xorStream]
  · intro i h1 h2
    simp [xorStream, UInt8.xor_assoc]

/-- The buffer filled step by step is `iv ‖ type ‖ context ‖ data`. -/
theorem buffer_eq (junk : Nat → UInt8) (iv ctx ser : Bytes) (tb : UInt8) (size : Nat) (hiv : iv.length = 16) (hs : ser.length = size) :
    (do
      let b1 ← putAt (rawBuf junk (16 + size + ctx.length + 1)) 0 iv
      let b2 ← putAt b1 16 [tb]
      let b3 ← putAt b2 17 ctx
      putAt b3 (16 + 1 + ctx.length) ser) = .ok (iv ++ tb :: ctx ++ ser) := by
  have hr : (rawBuf junk (16 + size + ctx.length + 1)).length = 16 + size + ctx.length + 1 := by simp [rawBuf]
  generalize rawBuf junk (16 + size + ctx.length + 1) = r at *
  rw [putAt_ok (by omega)]
  simp only [List.take_zero, List.nil_append, Nat.zero_add, Res.bind_ok]
  rw [putAt_ok (by simp only [List.length_append, List.length_drop, List.length_cons, List.length_nil]; omega)]
  simp only [Res.bind_ok, List.length_cons, List.length_nil, Nat.zero_add]
  have e1 : (iv ++ r.drop iv.length).take 16 = iv := List.take_left' hiv
  have e2 : (iv ++ r.drop iv.length).drop (16 + 1) = r.drop 17 := by
    rw [List.drop_append, List.drop_eq_nil_of_le (by omega), List.nil_append, List.drop_drop]; congr 1; omega
  rw [e1, e2]
  rw [putAt_ok (by simp only [List.length_append, List.length_drop, List.length_cons, List.length_nil]; omega)]
  simp only [Res.bind_ok]
  have hl : (iv ++ [tb]).length = 17 := by simp [hiv]
  rw [List.take_left' hl, List.drop_append, hl, List.drop_eq_nil_of_le (by omega), List.nil_append, List.drop_drop]
  have hl2 : (iv ++ [tb] ++ ctx).length = 16 + 1 + ctx.length := by simp [hiv]; omega
  rw [putAt_ok (by simp only [List.length_append, List.length_drop, List.length_cons, List.length_nil]; omega)]
  rw [List.take_left' hl2, List.drop_append, hl2, List.drop_eq_nil_of_le (by omega), List.nil_append, List.drop_drop,
    List.drop_eq_nil_of_le (by omega)]
  simp

/-- Three steps of the buffer, then a continuation. -/
theorem buffer_bind {α : Type} (junk : Nat → UInt8) (iv ctx ser : Bytes) (tb : UInt8) (size : Nat) (hiv : iv.length = 16)
    (hs : ser.length = size) (f : Bytes → Res α) :
    (do
      let b1 ← putAt (rawBuf junk (16 + size + ctx.length + 1)) 0 iv
      let b2 ← putAt b1 16 [tb]
      let b3 ← putAt b2 17 ctx
      let b4 ← putAt b3 (16 + 1 + ctx.length) ser
      f b4) = f (iv ++ tb :: ctx ++ ser) := by
  have h := buffer_eq junk iv ctx ser tb size hiv hs
  cases h1 : putAt (rawBuf junk (16 + size + ctx.length + 1)) 0 iv with
  | exc e => rw [h1] at h; cases h
  | ub => rw [h1] at h; cases h
  | ok b1 =>
    rw [h1] at h
    simp only [Res.bind_ok] at h ⊢
    cases h2 : putAt b1 16 [tb] with
    | exc e => rw [h2] at h; cases h
    | ub => rw [h2] at h; cases h
    | ok b2 =>
      rw [h2] at h
      simp only [Res.bind_ok] at h ⊢
      cases h3 : putAt b2 17 ctx with
      | exc e => rw [h3] at h; cases h
      | ub => rw [h3] at h; cases h
      | ok b3 =>
        rw [h3] at h
        simp only [Res.bind_ok] at h ⊢
        rw [h]
        rfl

/-- What `wrap` computes. -/
theorem wrap_eq {H : Bytes → Bytes} (hH : ∀ m, (H m).length = 64) (S : Bytes → Bytes → Nat → UInt8) (junk : Nat → UInt8)
    {w : Wrapper} {kt ke : Bytes} (hw : Good w kt ke) (C : Class) (x : C.σ) (iv ser : Bytes) (hiv : iv.length = 16)
    (hser : C.serialize x = .ok ser) (hsize : ser.length = C.size x) :
    wrap H S junk w C x iv = ⟨.ok (blob H S kt ke iv (C.typeByte :: C.ctx) ser), 0⟩ := by
  unfold wrap
  simp only [hser, Res.bind_ok]
  rw [buffer_bind junk iv C.ctx ser C.typeByte (C.size x) hiv hsize]
  rw [hw.tag, prf1_eq hH junk kt _ hw.ktlen 12 (by omega)]
  simp only [Res.bind_ok, hw.enc, Res.pure_eq]
  have e1 : (iv ++ C.typeByte :: C.ctx ++ ser).take 16 = iv := by
    rw [List.append_assoc, List.take_left' hiv]
  have e2 : ((iv ++ C.typeByte :: C.ctx ++ ser).drop (16 + 1 + C.ctx.length)).take (C.size x) = ser := by
    rw [List.drop_left' (by simp [hiv]; omega), List.take_of_length_le (by omega)]
  rw [e1, e2]
  rfl

/-- The parts of a string of more than 28 bytes. -/
theorem split_blob (c : Bytes) (h : 28 < c.length) :
    c = c.take 16 ++ (c.drop 16).take (c.length - 28) ++ c.drop (c.length - 12) := by
  have e : (c.drop 16).drop (c.length - 28) = c.drop (c.length - 12) := by
    rw [List.drop_drop]; congr 1; omega
  rw [← e, List.append_assoc, List.take_append_drop, List.take_append_drop]

/-- What `unwrap` computes. -/
theorem unwrap_eq {H : Bytes → Bytes} (hH : ∀ m, (H m).length = 64) (S : Bytes → Bytes → Nat → UInt8) (junk : Nat → UInt8)
    {w : Wrapper} {kt ke : Bytes} (hw : Good w kt ke) (C : Class) (c : Bytes) (hc : 28 < c.length) :
    unwrap H S junk w C c =
      (let tag := c.drop (c.length - 12)
       let ser := xorStream S ke tag ((c.drop 16).take (c.length - 28))
       if tag ≠ tagOf H kt (authData (c.take 16) (C.typeByte :: C.ctx) ser) then ⟨.exc .runtimeError, 1⟩
       else match C.deserialize ser with
         | .ok r => if r.2 ≠ c.length - 28 then ⟨.exc .runtimeError, 1⟩ else ⟨.ok (r.1, List.replicate c.length 0), 0⟩
         | .exc e => ⟨.exc e, 1⟩
         | .ub => ⟨.ub, 1⟩) := by
  have hsl : (xorStream S ke (c.drop (c.length - 12)) ((c.drop 16).take (c.length - 28))).length = c.length - 28 := by
    rw [xorStream_length, List.length_take, List.length_drop]; omega
  unfold unwrap
  rw [if_neg (by omega)]
  simp only [hw.enc]
  generalize hs : xorStream S ke (c.drop (c.length - 12)) ((c.drop 16).take (c.length - 28)) = ser at *
  have hiv : (c.take 16).length = 16 := by rw [List.length_take]; omega
  rw [buffer_bind junk (c.take 16) C.ctx ser C.typeByte (c.length - 28) hiv hsl]
  rw [hw.tag, prf1_eq hH junk kt _ hw.ktlen 12 (by omega)]
  have e2 : ((c.take 16 ++ C.typeByte :: C.ctx ++ ser).drop (16 + 1 + C.ctx.length)).take (c.length - 28) = ser := by
    rw [List.drop_left' (by simp [hiv]; omega), List.take_of_length_le (by omega)]
  rw [e2]
  simp only [Res.bind_ok]
  by_cases ht : c.drop (c.length - 12) ≠ tagOf H kt (authData (c.take 16) (C.typeByte :: C.ctx) ser)
  · rw [if_pos ht, if_pos (by exact ht)]; rfl
  · rw [if_neg ht, if_neg (by exact ht)]
    cases C.deserialize ser with
    | ok r =>
      simp only [Res.bind_ok]
      by_cases hr : r.2 ≠ c.length - 28
      · rw [if_pos hr, if_pos hr]; rfl
      · rw [if_neg hr, if_neg hr]; rfl
    | exc e => rfl
    | ub => rfl

/-- The parts of a blob. -/
theorem blob_parts {H : Bytes → Bytes} (hH : ∀ m, (H m).length = 64) (S : Bytes → Bytes → Nat → UInt8) (kt ke iv hd ser : Bytes)
    (hiv : iv.length = 16) :
    (blob H S kt ke iv hd ser).length = ser.length + 28 ∧ (blob H S kt ke iv hd ser).take 16 = iv ∧
    (blob H S kt ke iv hd ser).drop (ser.length + 16) = tagOf H kt (authData iv hd ser) ∧
    ((blob H S kt ke iv hd ser).drop 16).take ser.length = xorStream S ke (tagOf H kt (authData iv hd ser)) ser := by
  have ht := tagOf_length hH kt (authData iv hd ser)
  have hx := xorStream_length S ke (tagOf H kt (authData iv hd ser)) ser
  have hb : blob H S kt ke iv hd ser = iv ++ xorStream S ke (tagOf H kt (authData iv hd ser)) ser ++
      tagOf H kt (authData iv hd ser) := rfl
  rw [hb]
  generalize tagOf H kt (authData iv hd ser) = t at *
  generalize xorStream S ke t ser = x at *
  refine ⟨?_, ?_, ?_, ?_⟩
  · simp only [List.length_append, hiv, hx, ht]; omega
  · rw [List.append_assoc, List.take_left' hiv]
  · rw [List.drop_left' (by simp only [List.length_append, hiv, hx]; omega)]
  · rw [List.append_assoc, List.drop_left' hiv, List.take_left' hx]

/-- Unwrapping a blob. -/
theorem unwrap_blob {H : Bytes → Bytes} (hH : ∀ m, (H m).length = 64) (S : Bytes → Bytes → Nat → UInt8) (junk : Nat → UInt8)
    {w : Wrapper} {kt ke : Bytes} (hw : Good w kt ke) (C : Class) (iv hd ser : Bytes) (hiv : iv.length = 16) (hne : ser ≠ []) :
    unwrap H S junk w C (blob H S kt ke iv hd ser) =
      (if tagOf H kt (authData iv hd ser) ≠ tagOf H kt (authData iv (C.typeByte :: C.ctx) ser) then ⟨.exc .runtimeError, 1⟩
       else match C.deserialize ser with
         | .ok r => if r.2 ≠ ser.length then ⟨.exc .runtimeError, 1⟩ else ⟨.ok (r.1, List.replicate (ser.length + 28) 0), 0⟩
         | .exc e => ⟨.exc e, 1⟩
         | .ub => ⟨.ub, 1⟩) := by
  obtain ⟨h1, h2, h3, h4⟩ := blob_parts hH S kt ke iv hd ser hiv
  have hp : 0 < ser.length := List.length_pos_iff.2 hne
  rw [unwrap_eq hH S junk hw C _ (by omega)]
  have e1 : (blob H S kt ke iv hd ser).length - 12 = ser.length + 16 := by omega
  have e2 : (blob H S kt ke iv hd ser).length - 28 = ser.length := by omega
  simp only [e1, e2]
  simp only [h2, h3, h4, xorStream_xorStream, h1]

/-! ## C26 -/

/-- The object's serialization is not empty, has the announced size, and is read back completely as the same object. -/
def RoundTrips (C : Class) (x : C.σ) : Prop :=
  ∃ ser, C.serialize x = .ok ser ∧ ser.length = C.size x ∧ ser ≠ [] ∧ C.deserialize ser = .ok (x, ser.length)

/-- C26: unwrapping what was wrapped gives the object back, erases the blob, and leaves no buffer behind. -/
theorem c26_unwrap_wrap {H : Bytes → Bytes} (hH : ∀ m, (H m).length = 64) (S : Bytes → Bytes → Nat → UInt8)
    (junk junk' : Nat → UInt8) {w : Wrapper} {kt ke : Bytes} (hw : Good w kt ke) (C : Class) (x : C.σ) (hx : RoundTrips C x)
    (iv : Bytes) (hiv : iv.length = 16) :
    ∃ c, wrap H S junk w C x iv = ⟨.ok c, 0⟩ ∧ c.length = C.size x + 28 ∧ c.take 16 = iv ∧
      unwrap H S junk' w C c = ⟨.ok (x, List.replicate c.length 0), 0⟩ := by
  obtain ⟨ser, h1, h2, h3, h4⟩ := hx
  obtain ⟨p1, p2, _, _⟩ := blob_parts hH S kt ke iv (C.typeByte :: C.ctx) ser hiv
  refine ⟨_, wrap_eq hH S junk hw C x iv ser hiv h1 h2, by omega, p2, ?_⟩
  rw [unwrap_blob hH S junk' hw C iv _ ser hiv h3, if_neg (by simp), h4]
  simp [p1]

/-- The symmetric classes, the two RC-PRF classes and the TDP inverse satisfy the hypothesis of `c26_unwrap_wrap`, for all their objects
that are not moved-from. -/
theorem c26_classes :
    (∀ k : Bytes, k.length = 32 → RoundTrips cipherC (some k) ∧ RoundTrips prgC (some k) ∧ ∀ nb, RoundTrips (prfC nb) (some k)) ∧
    (∀ k : Bytes, k.length = 112 → RoundTrips prpC (some k)) ∧
    (∀ (nb : Nat) (k : Bytes) (h : Nat) (p : RCPrf.RCPrf), k.length = 32 → RCPrf.mkRCPrf k h = .ok p → RoundTrips (rcprfC nb) p) ∧
    (∀ (nb : Nat) (es : List RCPrf.Elem) (c : RCPrf.CRCPrf), 0 < nb → (∀ e ∈ es, RCPrf.ElemOk nb e) → es ≠ [] →
      es.length ≤ 4294967295 → RCPrf.mkCRCPrf es = .ok c → RoundTrips (crcprfC nb) c) ∧
    (∀ (K : Type) (pem : K → Bytes) (parse : Bytes → Res K) (k : K), Utils.PemShape (pem k) →
      (∀ body, pem k = body ++ [0x0a] → parse body = .ok k) → (pem k).length + 30 < W64 → RoundTrips (tdpInverseC pem parse) k) := by
  refine ⟨?_, ?_, ?_, ?_, ?_⟩
  · intro k hk
    have hne : k ≠ [] := by intro h; rw [h] at hk; simp at hk
    obtain ⟨a, b, c, _⟩ := c53_deserialize_partial k k.length 0 (Nat.le_refl _)
    rw [if_neg (by omega), List.take_of_length_le (by omega)] at a b c
    refine ⟨⟨k, rfl, hk, hne, ?_⟩, ⟨k, rfl, hk, hne, ?_⟩, fun nb => ⟨k, rfl, hk, hne, ?_⟩⟩
    · simp only [cipherC, c, Res.map_ok]; rw [hk]
    · simp only [prgC, b, Res.map_ok]; rw [hk]
    · simp only [prfC, a, Res.map_ok]; rw [hk]
  · intro k hk
    have hne : k ≠ [] := by intro h; rw [h] at hk; simp at hk
    obtain ⟨_, _, _, d⟩ := c53_deserialize_partial k k.length 0 (Nat.le_refl _)
    rw [if_neg (by omega), List.take_of_length_le (by omega)] at d
    refine ⟨k, rfl, hk, hne, ?_⟩
    simp only [prpC, d, Res.map_ok]; rw [hk]
  · intro nb k h p hk hp
    obtain ⟨h1, h2⟩ := RCPrf.c09_roundtrip k h p hk hp []
    rw [List.append_nil] at h2
    refine ⟨p.serialize, rfl, h1, ?_, ?_⟩
    · intro h0; rw [h0] at h1; simp at h1
    · simp only [rcprfC, h2, h1]
  · intro nb es c hnb hes hne hl hc
    obtain ⟨bs, h1, h2, h3⟩ := RCPrf.c08_roundtrip nb hnb es hes c hc hne hl
    have h3 := h3 []
    rw [List.append_nil] at h3
    refine ⟨bs, h1, h2, ?_, ?_⟩
    · intro h0
      rw [h0] at h3
      cases h3
    · simp only [crcprfC, h3, h2]
  · intro K pem parse k hs hp hl
    have h := Utils.c42_deserialize_serialize pem parse k k [] hs hp (by simpa using hl) _ (Nat.le_refl _)
    rw [List.append_nil] at h
    refine ⟨pem k, rfl, rfl, ?_, ?_⟩
    · obtain ⟨b, hb, hne, _⟩ := hs
      intro h0
      rw [h0] at hb
      cases b with
      | nil => exact hne rfl
      | cons x b => cases hb
    · show (Utils.deserializeInverse parse (Utils.enough (pem k) Utils.keySuffix) (pem k)).getD .ub = _
      unfold Utils.serializeInverse at h
      rw [h]; rfl

/-- A hash function and a key stream for the examples. -/
def toyMix (a b : UInt8) : UInt8 := a * 5 + a / 8 + (b ^^^ (a / 16)) + 1
def toyH' (m : Bytes) : Bytes := (List.range 64).map fun i => UInt8.ofNat (i * 7) + m.foldl toyMix 5
theorem toyH'_length : ∀ m, (toyH' m).length = 64 := by intro m; simp [toyH']

def toyS : Bytes → Bytes → Nat → UInt8 := fun k n i => UInt8.ofNat (i + k.length) + n.headD 3

def toyW : Wrapper := ⟨some (List.replicate 32 1), some [2, 3]⟩
theorem toyW_good : Good toyW (List.replicate 32 1) [2, 3] := ⟨rfl, rfl, by simp⟩

example : ∃ c, wrap toyH' toyS (fun _ => 0) toyW (prfC 16) (some toyKey32) (List.replicate 16 9) = ⟨.ok c, 0⟩ ∧
    c.length = 60 ∧ c.take 16 = List.replicate 16 9 ∧
    unwrap toyH' toyS (fun _ => 1) toyW (prfC 16) c = ⟨.ok (some toyKey32, List.replicate c.length 0), 0⟩ :=
  c26_unwrap_wrap toyH'_length toyS _ _ toyW_good (prfC 16) (some toyKey32) ((c26_classes.1 toyKey32 (by simp [toyKey32])).2.2 16) _
    (by simp)

/-- The blob used in the examples. -/
def toyBlob : Bytes := blob toyH' toyS (List.replicate 32 1) [2, 3] (List.replicate 16 9) [3] toyKey32

theorem toyBlob_unwrap : unwrap toyH' toyS (fun _ => 0) toyW prgC toyBlob = ⟨.ok (some toyKey32, List.replicate 60 0), 0⟩ := by
  unfold toyBlob
  rw [unwrap_blob toyH'_length toyS _ toyW_good prgC _ _ _ (by simp) (by simp [toyKey32]), if_neg (fun h => h rfl)]
  have hd : prgC.deserialize toyKey32 = .ok (some toyKey32, 32) := by
    obtain ⟨ser, h1, _, _, h4⟩ := (c26_classes.1 toyKey32 (by simp [toyKey32])).2.1
    have : Res.ok toyKey32 = .ok ser := h1
    injection this with this
    subst this
    exact h4
  rw [hd]
  exact if_neg (fun h => h rfl)

/-! ## C27 -/

/-- C27: if `unwrap<C>` accepts a byte string, then this string is exactly the blob made from its own IV, the header of
`C`, and a serialization that deserialization reads completely and turns into the returned object. -/
theorem c27_accepts_only_wraps {H : Bytes → Bytes} (hH : ∀ m, (H m).length = 64) (S : Bytes → Bytes → Nat → UInt8)
    (junk : Nat → UInt8) {w : Wrapper} {kt ke : Bytes} (hw : Good w kt ke) (C : Class) (c c' : Bytes) (x : C.σ)
    (h : (unwrap H S junk w C c).res = .ok (x, c')) :
    ∃ ser, 28 < c.length ∧ ser.length = c.length - 28 ∧ C.deserialize ser = .ok (x, ser.length) ∧
      c = blob H S kt ke (c.take 16) (C.typeByte :: C.ctx) ser ∧ c' = List.replicate c.length 0 := by
  by_cases hc : 28 < c.length
  · rw [unwrap_eq hH S junk hw C c hc] at h
    simp only at h
    split at h
    · cases h
    · rename_i ht
      simp only [ne_eq, Decidable.not_not] at ht
      cases hd : C.deserialize (xorStream S ke (c.drop (c.length - 12)) ((c.drop 16).take (c.length - 28))) with
      | exc e => rw [hd] at h; cases h
      | ub => rw [hd] at h; cases h
      | ok r =>
        rw [hd] at h
        simp only at h
        split at h
        · cases h
        · rename_i hr
          simp only [ne_eq, Decidable.not_not] at hr
          simp only [Res.ok.injEq, Prod.mk.injEq] at h
          have hl : (xorStream S ke (c.drop (c.length - 12)) ((c.drop 16).take (c.length - 28))).length = c.length - 28 := by
            rw [xorStream_length, List.length_take, List.length_drop]; omega
          refine ⟨_, hc, hl, ?_, ?_, h.2.symm⟩
          · rw [hd, hl, ← hr, ← h.1]
          · unfold blob
            simp only
            rw [← ht]
            have := xorStream_xorStream S ke (c.drop (c.length - 12)) ((c.drop 16).take (c.length - 28))
            unfold xorStream at this ⊢
            rw [this]
            exact split_blob c hc
  · unfold unwrap at h
    rw [if_pos (by omega)] at h
    cases h

example : ∃ ser, 28 < toyBlob.length ∧ ser.length = 32 ∧ prgC.deserialize ser = .ok (some toyKey32, ser.length) := by
  obtain ⟨ser, h1, h2, h3, _⟩ := c27_accepts_only_wraps toyH'_length toyS _ toyW_good prgC _ _ _ (congrArg Out.res toyBlob_unwrap)
  have hl : toyBlob.length = toyKey32.length + 28 :=
    (blob_parts toyH'_length toyS (List.replicate 32 1) [2, 3] (List.replicate 16 9) [3] toyKey32 (by simp)).1
  have hk : toyKey32.length = 32 := by simp [toyKey32]
  exact ⟨ser, h1, by omega, h3⟩

/-- C27 for the classes with a unique serialization: an accepted string is the wrapping of the returned object with the
IV it starts with. -/
theorem c27_is_wrap {H : Bytes → Bytes} (hH : ∀ m, (H m).length = 64) (S : Bytes → Bytes → Nat → UInt8)
    (junk : Nat → UInt8) {w : Wrapper} {kt ke : Bytes} (hw : Good w kt ke) (C : Class)
    (hC : C = cipherC ∨ C = prgC ∨ (∃ nb, C = prfC nb) ∨ C = prpC ∨ ∃ nb, C = rcprfC nb) (c c' : Bytes) (x : C.σ)
    (h : (unwrap H S junk w C c).res = .ok (x, c')) :
    wrap H S junk w C x (c.take 16) = ⟨.ok c, 0⟩ := by
  obtain ⟨ser, h1, h2, h3, h4, _⟩ := c27_accepts_only_wraps hH S junk hw C c c' x h
  have hser : C.serialize x = .ok ser ∧ ser.length = C.size x := by
    have h53 := c53_deserialize_partial ser ser.length 0 (Nat.le_refl _)
    have hmap : ∀ {α β : Type} {y : Res α} {f : α → β} {b : β}, f <$> y = .ok b → ∃ a, y = .ok a ∧ f a = b :=
      fun h => RCPrf.map_eq_ok h
    rcases hC with h | h | ⟨nb, h⟩ | h | ⟨nb, h⟩ <;> subst h
    · obtain ⟨d, hd, he⟩ := hmap h3
      rw [h53.2.2.1] at hd
      split at hd
      · cases hd
      · injection hd with hd
        subst hd
        have he1 := congrArg Prod.fst he
        have he2 := congrArg Prod.snd he
        simp only at he1 he2
        subst he1
        have hl : ser.length = 32 := he2.symm
        exact ⟨by simp [cipherC, keySer, List.take_of_length_le (Nat.le_of_eq hl)], hl⟩
    · obtain ⟨d, hd, he⟩ := hmap h3
      rw [h53.2.1] at hd
      split at hd
      · cases hd
      · injection hd with hd
        subst hd
        have he1 := congrArg Prod.fst he
        have he2 := congrArg Prod.snd he
        simp only at he1 he2
        subst he1
        have hl : ser.length = 32 := he2.symm
        exact ⟨by simp [prgC, keySer, List.take_of_length_le (Nat.le_of_eq hl)], hl⟩
    · obtain ⟨d, hd, he⟩ := hmap h3
      rw [h53.1] at hd
      split at hd
      · cases hd
      · injection hd with hd
        subst hd
        have he1 := congrArg Prod.fst he
        have he2 := congrArg Prod.snd he
        simp only at he1 he2
        subst he1
        have hl : ser.length = 32 := he2.symm
        exact ⟨by simp [prfC, keySer, List.take_of_length_le (Nat.le_of_eq hl)], hl⟩
    · obtain ⟨d, hd, he⟩ := hmap h3
      rw [h53.2.2.2] at hd
      split at hd
      · cases hd
      · injection hd with hd
        subst hd
        have he1 := congrArg Prod.fst he
        have he2 := congrArg Prod.snd he
        simp only at he1 he2
        subst he1
        have hl : ser.length = 112 := he2.symm
        exact ⟨by simp [prpC, keySer, List.take_of_length_le (Nat.le_of_eq hl)], hl⟩
    · rcases RCPrf.c09_deserialize_sound ser with h | ⟨p, hp, _, _, _, hl, hps⟩
      · simp only [rcprfC, h] at h3; cases h3
      · have h3' : RCPrf.deserializeF ser = .ok (x, ser.length) := h3
        rw [hp] at h3'
        injection h3' with h3'
        have hpx : p = x := congrArg Prod.fst h3'
        have h33 : 33 = ser.length := congrArg Prod.snd h3'
        subst hpx
        refine ⟨?_, h33.symm⟩
        simp only [rcprfC, hps, h33]
        rw [List.take_length]
  have hiv : (c.take 16).length = 16 := by rw [List.length_take]; omega
  rw [wrap_eq hH S junk hw C x _ ser hiv hser.1 hser.2, ← h4]

example : wrap toyH' toyS (fun _ => 0) toyW prgC (some toyKey32) (toyBlob.take 16) = ⟨.ok toyBlob, 0⟩ :=
  c27_is_wrap toyH'_length toyS (fun _ => 0) toyW_good prgC (.inr (.inl rfl)) _ (List.replicate 60 0) (some toyKey32)
    (congrArg Out.res toyBlob_unwrap)

/-- C27, tampering: two different strings with the same tag that are both accepted exhibit a collision of the tag PRF (on
two different inputs). So truncated, extended or modified blobs that keep the tag are rejected unless there is one. -/
theorem c27_tamper {H : Bytes → Bytes} (hH : ∀ m, (H m).length = 64) (S : Bytes → Bytes → Nat → UInt8)
    (junk : Nat → UInt8) {w : Wrapper} {kt ke : Bytes} (hw : Good w kt ke) (C : Class) (c d c' d' : Bytes) (x y : C.σ)
    (hx : (unwrap H S junk w C c).res = .ok (x, c')) (hy : (unwrap H S junk w C d).res = .ok (y, d'))
    (htag : c.drop (c.length - 12) = d.drop (d.length - 12)) (hne : c ≠ d) :
    ∃ a b, a ≠ b ∧ tagOf H kt a = tagOf H kt b := by
  obtain ⟨s1, a1, a2, _, a4, _⟩ := c27_accepts_only_wraps hH S junk hw C c c' x hx
  obtain ⟨s2, b1, b2, _, b4, _⟩ := c27_accepts_only_wraps hH S junk hw C d d' y hy
  have p1 := (blob_parts hH S kt ke (c.take 16) (C.typeByte :: C.ctx) s1 (by rw [List.length_take]; omega)).2.2.1
  have p2 := (blob_parts hH S kt ke (d.take 16) (C.typeByte :: C.ctx) s2 (by rw [List.length_take]; omega)).2.2.1
  rw [← a4] at p1
  rw [← b4] at p2
  have e1 : s1.length + 16 = c.length - 12 := by omega
  have e2 : s2.length + 16 = d.length - 12 := by omega
  rw [e1] at p1
  rw [e2] at p2
  refine ⟨authData (c.take 16) (C.typeByte :: C.ctx) s1, authData (d.take 16) (C.typeByte :: C.ctx) s2, ?_,
    by rw [← p1, ← p2, htag]⟩
  intro he
  apply hne
  unfold authData at he
  rw [List.append_assoc, List.append_assoc] at he
  have l1 : (c.take 16).length = (d.take 16).length := by rw [List.length_take, List.length_take]; omega
  obtain ⟨hiv, he⟩ := List.append_inj he l1
  have hs := List.append_cancel_left he
  rw [a4, b4, hiv, hs]

/-- A hash without collisions among the strings used in the example is not needed: the hypotheses of `c27_tamper` hold for
the constant toy tag and two blobs that differ in the IV. -/
example : ∃ c d : Bytes, c ≠ d ∧ c.drop (c.length - 12) = d.drop (d.length - 12) ∧
    (unwrap (fun _ => List.replicate 64 0) toyS (fun _ => 0) toyW prgC c).res.isOk ∧
    (unwrap (fun _ => List.replicate 64 0) toyS (fun _ => 0) toyW prgC d).res.isOk := by
  have hH : ∀ m : Bytes, ((fun _ => List.replicate 64 0 : Bytes → Bytes) m).length = 64 := by simp
  refine ⟨blob (fun _ => List.replicate 64 0) toyS (List.replicate 32 1) [2, 3] (List.replicate 16 9) [3] toyKey32,
    blob (fun _ => List.replicate 64 0) toyS (List.replicate 32 1) [2, 3] (List.replicate 16 8) [3] toyKey32,
    by decide +kernel, by decide +kernel, ?_, ?_⟩
  · rw [unwrap_blob hH toyS _ toyW_good prgC _ _ _ (by simp) (by simp [toyKey32])]; decide +kernel
  · rw [unwrap_blob hH toyS _ toyW_good prgC _ _ _ (by simp) (by simp [toyKey32])]; decide +kernel

/-- C27: strings of at most 28 bytes are rejected with `invalid_argument`, and every refusal leaves the input unchanged
and is an exception, never undefined behaviour, for deserializers that have none. -/
theorem c27_no_ub {H : Bytes → Bytes} (hH : ∀ m, (H m).length = 64) (S : Bytes → Bytes → Nat → UInt8)
    (junk : Nat → UInt8) {w : Wrapper} {kt ke : Bytes} (hw : Good w kt ke) (C : Class) (hC : ∀ s, C.deserialize s ≠ .ub) (c : Bytes) :
    (c.length ≤ 28 → (unwrap H S junk w C c).res = .exc .invalidArgument) ∧ (unwrap H S junk w C c).res ≠ .ub := by
  constructor
  · intro h; unfold unwrap; rw [if_pos h]
  · by_cases hc : 28 < c.length
    · rw [unwrap_eq hH S junk hw C c hc]
      simp only
      split
      · simp
      · have := hC (xorStream S ke (c.drop (c.length - 12)) ((c.drop 16).take (c.length - 28)))
        cases hd : C.deserialize (xorStream S ke (c.drop (c.length - 12)) ((c.drop 16).take (c.length - 28))) with
        | ub => exact absurd hd this
        | exc e => simp
        | ok r => simp only; split <;> simp
    · unfold unwrap; rw [if_pos (by omega)]; simp

example : (unwrap toyH' toyS (fun _ => 0) toyW (crcprfC 16) (List.replicate 100 1)).res ≠ .ub :=
  (c27_no_ub toyH'_length toyS _ toyW_good (crcprfC 16) (fun s => (RCPrf.c08_deserialize_sound 16 s).1) _).2

/-! ## C28 -/

/-- The wrappable types. -/
inductive TypeId where
  | cipher | prf (nb : Nat) | prg | prp | rcprf (nb : Nat) | crcprf (nb : Nat) | tdpInverse
  deriving DecidableEq, Repr

/-- `NBYTES` is a `uint16_t`. -/
def TypeId.Valid : TypeId → Prop
  | .prf nb | .rcprf nb | .crcprf nb => nb < 65536
  | _ => True

/-- The class of each type. -/
def TypeId.cls {K : Type} (pem : K → Bytes) (parse : Bytes → Res K) : TypeId → Class
  | .cipher => cipherC
  | .prf nb => prfC nb
  | .prg => prgC
  | .prp => prpC
  | .rcprf nb => rcprfC nb
  | .crcprf nb => crcprfC nb
  | .tdpInverse => tdpInverseC pem parse

/-- The header of a class: type byte and public context. -/
def Class.header (C : Class) : Bytes := C.typeByte :: C.ctx

theorem nbCtx_inj {a b : Nat} (ha : a < 65536) (hb : b < 65536) (h : nbCtx a = nbCtx b) : a = b := by
  simp only [nbCtx, List.cons.injEq, and_true] at h
  have h1 := congrArg UInt8.toNat h.1
  have h2 := congrArg UInt8.toNat h.2
  simp only [UInt8.toNat_ofNat'] at h1 h2
  omega

/-- C28, headers: the classes of two different types have different headers, except RCPrf<n> and ConstrainedRCPrf<n>. -/
theorem c28_headers {K : Type} (pem : K → Bytes) (parse : Bytes → Res K) (a b : TypeId) (ha : a.Valid) (hb : b.Valid)
    (h : (a.cls pem parse).header = (b.cls pem parse).header) :
    a = b ∨ ∃ nb, (a = .rcprf nb ∧ b = .crcprf nb) ∨ (a = .crcprf nb ∧ b = .rcprf nb) := by
  cases a <;> cases b <;>
    simp only [TypeId.cls, Class.header, cipherC, prfC, prgC, prpC, rcprfC, crcprfC, tdpInverseC] at h <;>
    first
      | (left; rfl)
      | (injection h with h1 h2
         first
           | exact absurd h1 (by decide)
           | (have := nbCtx_inj ha hb h2; subst this; simp))

example : (TypeId.cls (fun b : Bytes => b) .ok (.prf 16)).header ≠ (TypeId.cls (fun b : Bytes => b) .ok (.prf 272)).header := by decide

/-- C28: a blob made from a serialization with one header, unwrapped as a class with another header, is refused, unless
the tag PRF takes the same value on the two inputs that differ exactly in the header.
Partial: says nothing for RCPrf<n> and ConstrainedRCPrf<n>, which share the header (`c28_rcprf_partial`, `c28_confusion_false`). -/
theorem c28_confusion_partial {H : Bytes → Bytes} (hH : ∀ m, (H m).length = 64) (S : Bytes → Bytes → Nat → UInt8)
    (junk junk' : Nat → UInt8) {w : Wrapper} {kt ke : Bytes} (hw : Good w kt ke) (C D : Class) (x : C.σ) (ser iv : Bytes)
    (hiv : iv.length = 16) (hser : C.serialize x = .ok ser) (hsize : ser.length = C.size x) (hne : ser ≠ [])
    (hhd : C.typeByte :: C.ctx ≠ D.typeByte :: D.ctx) :
    ∃ c, (wrap H S junk w C x iv).res = .ok c ∧
      ((unwrap H S junk' w D c).res = .exc .runtimeError ∨
       (authData iv (C.typeByte :: C.ctx) ser ≠ authData iv (D.typeByte :: D.ctx) ser ∧
        tagOf H kt (authData iv (C.typeByte :: C.ctx) ser) = tagOf H kt (authData iv (D.typeByte :: D.ctx) ser))) := by
  refine ⟨_, congrArg Out.res (wrap_eq hH S junk hw C x iv ser hiv hser hsize), ?_⟩
  rw [unwrap_blob hH S junk' hw D iv _ ser hiv hne]
  by_cases ht : tagOf H kt (authData iv (C.typeByte :: C.ctx) ser) = tagOf H kt (authData iv (D.typeByte :: D.ctx) ser)
  · refine .inr ⟨?_, ht⟩
    intro he
    apply hhd
    unfold authData at he
    have := List.append_cancel_right he
    exact List.append_cancel_left this
  · rw [if_pos ht]; exact .inl rfl

example : ∃ c, (wrap toyH' toyS (fun _ => 0) toyW (prfC 16) (some toyKey32) (List.replicate 16 9)).res = .ok c ∧
    (unwrap toyH' toyS (fun _ => 0) toyW (prfC 32) c).res = .exc .runtimeError := by
  obtain ⟨c, h1, h2⟩ := c28_confusion_partial toyH'_length toyS (fun _ => 0) (fun _ => 0) toyW_good (prfC 16) (prfC 32) (some toyKey32) toyKey32
    (List.replicate 16 9) (by simp) rfl (by simp [toyKey32, prfC]) (by simp [toyKey32]) (by decide)
  refine ⟨c, h1, ?_⟩
  rcases h2 with h2 | ⟨_, h2⟩
  · exact h2
  · exact absurd h2 (by decide +kernel)

/-- The sizes a constrained RC-PRF serialization can have: 5 bytes, and 17 + 32 or 17 + n bytes per element. -/
theorem deserElems_size {n th : Nat} : ∀ (cnt : Nat) (inp : Bytes) (es : List RCPrf.Elem) (r : Nat),
    RCPrf.deserElems n th cnt inp = .ok (es, r) → ∃ i l, i + l = cnt ∧ r = 49 * i + (17 + n) * l := by
  intro cnt
  induction cnt with
  | zero =>
    intro inp es r h
    simp only [RCPrf.deserElems, Res.ok.injEq, Prod.mk.injEq] at h
    exact ⟨0, 0, rfl, by simpa using h.2.symm⟩
  | succ cnt ih =>
    intro inp es r h
    rw [RCPrf.deserElems] at h
    split_ifs at h with hlen
    simp only [Res.bind_eq_ok] at h
    obtain ⟨⟨e, r1⟩, h1, ⟨es', r2⟩, h2, h3⟩ := h
    simp only [Res.pure_eq, Res.ok.injEq, Prod.mk.injEq] at h3
    obtain ⟨rfl, rfl⟩ := h3
    obtain ⟨i, l, hil, hr⟩ := ih _ _ _ h2
    unfold RCPrf.deserElem at h1
    split_ifs at h1
    · obtain ⟨e', he', h1⟩ := RCPrf.map_eq_ok h1
      simp only [Prod.mk.injEq] at h1
      obtain ⟨rfl, rfl⟩ := h1
      refine ⟨i, l + 1, by omega, ?_⟩
      rw [hr, Nat.mul_succ]; omega
    · obtain ⟨e', he', h1⟩ := RCPrf.map_eq_ok h1
      simp only [Prod.mk.injEq] at h1
      obtain ⟨rfl, rfl⟩ := h1
      refine ⟨i + 1, l, by omega, ?_⟩
      rw [hr]; omega

/-- C28 for the two classes with the same header: a wrapped RCPrf<n> cannot be unwrapped as ConstrainedRCPrf<n>, nor the
other way round, because the sizes cannot match.
Partial: only for n ≠ 11; for n = 11 see `c28_confusion_false`. -/
theorem c28_rcprf_partial {H : Bytes → Bytes} (hH : ∀ m, (H m).length = 64) (S : Bytes → Bytes → Nat → UInt8)
    (junk : Nat → UInt8) {w : Wrapper} {kt ke : Bytes} (hw : Good w kt ke) (nb : Nat) (h11 : nb ≠ 11) (hnb : 0 < nb)
    (c c1 c2 : Bytes) (p : RCPrf.RCPrf) (q : RCPrf.CRCPrf) (hp : (unwrap H S junk w (rcprfC nb) c).res = .ok (p, c1))
    (hq : (unwrap H S junk w (crcprfC nb) c).res = .ok (q, c2)) : False := by
  obtain ⟨s1, a1, a2, a3, a4, _⟩ := c27_accepts_only_wraps hH S junk hw (rcprfC nb) c c1 p hp
  obtain ⟨s2, b1, b2, b3, b4, _⟩ := c27_accepts_only_wraps hH S junk hw (crcprfC nb) c c2 q hq
  have h33 : s1.length = 33 := by
    rcases RCPrf.c09_deserialize_sound s1 with h | ⟨p', h, _⟩
    · have a3' : RCPrf.deserializeF s1 = .ok (p, s1.length) := a3
      rw [h] at a3'; cases a3'
    · have a3' : RCPrf.deserializeF s1 = .ok (p, s1.length) := a3
      rw [h] at a3'
      injection a3' with a3'
      exact (congrArg Prod.snd a3').symm
  replace b3 : RCPrf.deserializeC nb s2 = .ok (q, s2.length) := b3
  unfold RCPrf.deserializeC at b3
  split_ifs at b3
  simp only [Res.bind_eq_ok] at b3
  obtain ⟨⟨es, r⟩, h1, _, _, h3⟩ := b3
  simp only [Res.pure_eq, Res.ok.injEq, Prod.mk.injEq] at h3
  obtain ⟨i, l, _, hr⟩ := deserElems_size _ _ _ _ h1
  have hsz : 5 + r = 33 := by omega
  have hi : i = 0 := by
    rcases Nat.eq_zero_or_pos i with h | h
    · exact h
    · exfalso
      have : 0 ≤ (17 + nb) * l := Nat.zero_le _
      omega
  subst hi
  have hl : l = 1 := by
    rcases l with _ | _ | l
    · simp at hr; omega
    · rfl
    · exfalso
      have : (17 + nb) * (l + 1 + 1) = (17 + nb) * l + (17 + nb) * 2 := by rw [Nat.add_assoc, Nat.mul_add]
      omega
  subst hl
  omega

/-- The key bytes of a full RC-PRF whose serialization is also that of a constrained one with a single leaf element:
number of elements 1, height 1, leaf 5, value. -/
def confusedKey : Bytes := [1, 0, 0, 0, 1] ++ leBytes 8 5 ++ leBytes 8 5 ++ List.replicate 11 42

/-- C28 is false for n = 11: a wrapped RCPrf<11> of height 10 with this key is accepted as ConstrainedRCPrf<11> (for the one leaf 5,
whose value is then a part of the root key), for all hash functions, key streams, wrapping keys and IVs. -/
theorem c28_confusion_false {H : Bytes → Bytes} (hH : ∀ m, (H m).length = 64) (S : Bytes → Bytes → Nat → UInt8)
    (junk : Nat → UInt8) {w : Wrapper} {kt ke : Bytes} (hw : Good w kt ke) (iv : Bytes) (hiv : iv.length = 16) :
    ∃ p q c c', RCPrf.mkRCPrf confusedKey 10 = .ok p ∧ wrap H S junk w (rcprfC 11) p iv = ⟨.ok c, 0⟩ ∧
      unwrap H S junk w (crcprfC 11) c = ⟨.ok (q, c'), 0⟩ ∧ q = ⟨10, [⟨10, 1, 5, 5, .leaf (List.replicate 11 42)⟩]⟩ := by
  refine ⟨⟨10, confusedKey⟩, _, _, List.replicate 61 0, by decide +kernel,
    wrap_eq hH S junk hw (rcprfC 11) ⟨10, confusedKey⟩ iv (10 :: confusedKey) hiv (by rfl) (by rfl), ?_, rfl⟩
  rw [unwrap_blob hH S junk hw (crcprfC 11) iv _ _ hiv (by simp)]
  have hd : (crcprfC 11).deserialize (10 :: confusedKey) = .ok (⟨10, [⟨10, 1, 5, 5, .leaf (List.replicate 11 42)⟩]⟩, 33) := by
    have : RCPrf.deserializeC 11 (10 :: confusedKey) =
        .ok ((⟨10, [⟨10, 1, 5, 5, .leaf (List.replicate 11 42)⟩]⟩ : RCPrf.CRCPrf), 33) := by decide +kernel
    exact this
  rw [hd]
  have hhd : (rcprfC 11).typeByte :: (rcprfC 11).ctx = (crcprfC 11).typeByte :: (crcprfC 11).ctx := rfl
  rw [hhd, if_neg (by simp)]
  exact if_neg (by decide)

example : ∃ p q c c', RCPrf.mkRCPrf confusedKey 10 = .ok p ∧
    wrap toyH' toyS (fun _ => 0) toyW (rcprfC 11) p (List.replicate 16 0) = ⟨.ok c, 0⟩ ∧
    unwrap toyH' toyS (fun _ => 0) toyW (crcprfC 11) c = ⟨.ok (q, c'), 0⟩ ∧
    q = ⟨10, [⟨10, 1, 5, 5, .leaf (List.replicate 11 42)⟩]⟩ :=
  c28_confusion_false toyH'_length toyS _ toyW_good _ (by simp)

/-! ## C29 -/

/-- C29: the tagging key and the encryption key are the PRF (HMAC) values of the two different inputs 01 and 02; a
moved-from key is refused. -/
theorem c29_keys {H : Bytes → Bytes} (hH : ∀ m, (H m).length = 64) (junk : Nat → UInt8) (k : Bytes) (hk : k.length = 32) :
    mkWrapper H junk (some k) = .ok ⟨some ((HMAC H k [1]).take 32), some ((HMAC H k [2]).take 32)⟩ ∧
    Good ⟨some ((HMAC H k [1]).take 32), some ((HMAC H k [2]).take 32)⟩ ((HMAC H k [1]).take 32) ((HMAC H k [2]).take 32) ∧
    mkWrapper H junk none = .exc .runtimeError := by
  refine ⟨?_, ⟨rfl, rfl, ?_⟩, ?_⟩
  · unfold mkWrapper
    rw [prf1_eq hH junk k [1] hk 32 (by omega), prf1_eq hH junk k [2] hk 32 (by omega)]
    rfl
  · unfold HMAC; rw [List.length_take, hH]; rfl
  · unfold mkWrapper
    rw [prf1_none H junk [1] 32 (by omega)]
    rfl

example : mkWrapper toyH' (fun _ => 3) (some toyKey32) =
    .ok ⟨some ((HMAC toyH' toyKey32 [1]).take 32), some ((HMAC toyH' toyKey32 [2]).take 32)⟩ :=
  (c29_keys toyH'_length _ toyKey32 (by simp [toyKey32])).1

/-- C29: the two keys are equal only if HMAC collides (on 32 bytes) on the inputs 01 and 02; what a wrapper does depends
on the wrapping key only (not on uninitialised memory). -/
theorem c29_separated {H : Bytes → Bytes} (hH : ∀ m, (H m).length = 64) (junk junk' : Nat → UInt8) (k : Bytes) (hk : k.length = 32)
    (w w' : Wrapper) (hw : mkWrapper H junk (some k) = .ok w) (hw' : mkWrapper H junk' (some k) = .ok w') :
    w = w' ∧ (w.tagKey = w.encKey → ([1] : Bytes) ≠ [2] ∧ (HMAC H k [1]).take 32 = (HMAC H k [2]).take 32) := by
  rw [(c29_keys hH junk k hk).1] at hw
  rw [(c29_keys hH junk' k hk).1] at hw'
  injection hw with hw
  injection hw' with hw'
  subst hw hw'
  refine ⟨rfl, ?_⟩
  intro h
  exact ⟨by decide, by simpa using h⟩

example : ∃ w, mkWrapper toyH' (fun _ => 3) (some toyKey32) = .ok w ∧ w.tagKey ≠ w.encKey :=
  ⟨_, (c29_keys toyH'_length _ toyKey32 (by simp [toyKey32])).1, by decide +kernel⟩

/-! ## C60 -/

/-- C60: a call of `unwrap` that returns normally, or that is refused for the length, has released its buffer with the
decrypted serialization.
Partial: the other refusals leak it, see `c60_leak_false`. -/
theorem c60_released_partial (H : Bytes → Bytes) (S : Bytes → Bytes → Nat → UInt8) (junk : Nat → UInt8) (w : Wrapper) (C : Class)
    (c : Bytes) (h : (unwrap H S junk w C c).res.isOk = true ∨ c.length ≤ 28) : (unwrap H S junk w C c).live = 0 := by
  have key : ∀ {α : Type} (r : Res α), (leakOnThrow r).res.isOk = true → (leakOnThrow r).live = 0 := by
    intro α r h
    cases r <;> first | rfl | cases h
  unfold unwrap at h ⊢
  by_cases hc : c.length ≤ 28
  · rw [if_pos hc]
  · rw [if_neg hc] at h ⊢
    exact key _ (h.resolve_right hc)

example : (unwrap toyH' toyS (fun _ => 0) toyW prgC (List.replicate 20 1)).live = 0 :=
  c60_released_partial _ _ _ _ _ _ (.inr (by simp))

/-- C60 is false: every call refused because of a wrong tag (or in deserialization) leaks the buffer. -/
theorem c60_leak_false (H : Bytes → Bytes) (S : Bytes → Bytes → Nat → UInt8) (junk : Nat → UInt8) (w : Wrapper) (C : Class)
    (c : Bytes) (hc : 28 < c.length) (e : Exc) (h : (unwrap H S junk w C c).res = .exc e) : (unwrap H S junk w C c).live = 1 := by
  have key : ∀ {α : Type} (r : Res α), (leakOnThrow r).res = .exc e → (leakOnThrow r).live = 1 := by
    intro α r h
    cases r <;> first | rfl | cases h
  unfold unwrap at h ⊢
  rw [if_neg (by omega)] at h ⊢
  exact key _ h

example : (unwrap toyH' toyS (fun _ => 0) toyW prgC (List.replicate 60 1)).live = 1 ∧
    (unwrap toyH' toyS (fun _ => 0) toyW prgC (List.replicate 60 1)).res = .exc .runtimeError := by
  have h : (unwrap toyH' toyS (fun _ => 0) toyW prgC (List.replicate 60 1)).res = .exc .runtimeError := by
    rw [unwrap_eq toyH'_length toyS _ toyW_good prgC _ (by simp)]
    simp only
    rw [if_pos (by decide +kernel)]
  exact ⟨c60_leak_false _ _ _ _ _ _ (by simp) _ h, h⟩

end Verif.Wrapper
