import Verif.Ppke.Lemmas
import Verif.Mac.Props
import Mathlib.Data.Nat.Digits.Lemmas
import Mathlib.Tactic.NormNum.Prime

/-!
# Properties of puncturable encryption (C49 – C52)
-/

namespace Verif.Ppke

open Verif

set_option linter.unusedSectionVars false

variable {G1 G2 GT : Type} [AddCommGroup G1] [AddCommGroup G2] [AddCommGroup GT] {G : Grp G1 G2 GT}

/-! ## Shares made by the various operations -/

theorem skgen_good (sp : Params) (rr : Int) : Good G sp (skgen G sp rr) sp.alpha := by
  refine ⟨rr, _, zadd G sp.beta (zmul G (hashToZR G nullTag) sp.ry) * rr, rfl, rfl, by rw [mul_zsmul]; rfl, ?_, ?_⟩
  · rw [zmul_cast, zadd_cast]; ring
  · push_cast; rw [zadd_cast, zmul_cast, hash_cast]; show _ = _ * (_ + tagVal G nullTag * _); ring

/-- The value the PRF gives for a label, in the field. -/
def prfVal (G : Grp G1 G2 GT) (prf : Bytes → Bytes) (l : Bytes) : ZMod G.r := (beNat (prf l) : ZMod G.r)

/-- `l_d`, with `l_0 = -α`. -/
def lVal (G : Grp G1 G2 GT) (prf : Bytes → Bytes) (sp : Params) (d : Nat) : ZMod G.r :=
  if d = 0 then -(sp.alpha : ZMod G.r) else prfVal G prf (lblL d)

theorem sk0Gen_good (prf : Bytes → Bytes) (sp : Params) (d : Nat) : Good G sp (sk0Gen G prf sp d) (-lVal G prf sp d) := by
  rw [sk0Gen]
  by_cases hd : d = 0
  · simp only [hd, if_true, lVal]
    refine ⟨_, _, _, rfl, rfl, (mul_zsmul _ _ _).symm, ?_, ?_⟩
    · rw [zmul_cast, zadd_cast]; ring
    · push_cast; rw [zadd_cast, zmul_cast, hash_cast]; ring
  · simp only [hd, if_false, lVal]
    refine ⟨_, _, _, rfl, rfl, (mul_zsmul _ _ _).symm, ?_, ?_⟩
    · rw [zmul_cast, zsub_cast, pseudoRandomZR_cast G prf (lblL d)]; rw [prfVal]; ring
    · push_cast; rw [zadd_cast, zmul_cast, hash_cast]; ring

theorem skShareGen_good {asserts : Bool} {prf : Bytes → Bytes} {sp : Params} {d : Nat} (hd : 1 ≤ d) {tag : Bytes} {s : Share G2}
    (h : skShareGen G asserts prf sp d tag = .ok s) : s.sk4 = tag ∧ Good G sp s (lVal G prf sp d - lVal G prf sp (d - 1)) := by
  rw [skShareGen] at h
  split at h
  · exact absurd h (by simp)
  · injection h with h
    subst h
    refine ⟨rfl, _, _, _, rfl, rfl, (mul_zsmul _ _ _).symm, ?_, ?_⟩
    · have hp : ((prevL G prf sp d : Int) : ZMod G.r) = lVal G prf sp (d - 1) := by
        rw [prevL, lVal]
        by_cases h1 : d > 1
        · rw [if_pos h1, if_neg (by omega), pseudoRandomZR_cast]; rfl
        · rw [if_neg h1, if_pos (by omega), zneg_cast]
      rw [zmul_cast, zadd_cast, zsub_cast, hp, pseudoRandomZR_cast G prf (lblL d)]
      rw [show lVal G prf sp d = (beNat (prf (lblL d)) : ZMod G.r) by rw [lVal, if_neg (by omega)]; rfl]
    · push_cast; rw [zadd_cast, zmul_cast, hash_cast]; ring

theorem skShareGen_ok (asserts : Bool) (prf : Bytes → Bytes) (sp : Params) {d : Nat} (hd : 1 ≤ d) {tag : Bytes} (ht : tag ≠ nullTag) :
    ∃ s, skShareGen G asserts prf sp d tag = .ok s := by
  rw [skShareGen, if_neg]
  · exact ⟨_, rfl⟩
  · simp [ht]; omega

/-! ## Ciphertexts -/

theorem mask_ok (hG : G.Ok) {tag : Bytes} (ht : tag.length = 16) (x : Bytes) :
    mask G tag x = .ok (leNat ((Mac.HMAC G.H tag x).take 8)) := by
  rw [mask, Mac.hmac_eq hG.H_len _ _ _ _ ht (by omega) 8 (by omega)]; rfl

theorem gtArray_eq (hG : G.Ok) (x : GT) : gtArray G x = G.encT x := by
  rw [gtArray, hG.encT_len]; simp [gtSize]

/-- What encryption computes. -/
theorem encryptSp_eq (hG : G.Ok) (sp : Params) (x m : Nat) {tag : Bytes} (hl : tag.length = 16) (ht : tag ≠ nullTag) {e : Int}
    (he : (e : ZMod G.r) = x * sp.beta * sp.alpha) :
    ∃ c, encryptSp G sp x m tag = .ok c ∧ c.tag = tag ∧ c.ct1 = (leNat ((Mac.HMAC G.H tag (G.encT (e • G.gT))).take 8)) ^^^ m ∧
      GoodCt G sp c (randomZR G x) := by
  have e1 : powGT G.gT (zmul G (zmul G sp.alpha sp.beta) (randomZR G x)) = e • G.gT := by
    rw [powGT_eq]
    apply smul_congr hG.torT
    rw [zmul_cast, zmul_cast, randomZR_cast, he]; ring
  refine ⟨⟨_, randomZR G x • G.g1, zadd G sp.beta (zmul G (hashToZR G tag) sp.ry) • (randomZR G x • G.g1), tag⟩, ?_, rfl, rfl, ?_⟩
  · simp only [encryptSp, blindSp, if_neg ht, Res.bind_ok, e1, gtArray_eq hG, mask_ok hG hl]; rfl
  · refine ⟨zadd G sp.beta (zmul G (hashToZR G tag) sp.ry) * randomZR G x, rfl, (mul_zsmul _ _ _).symm, ?_⟩
    push_cast
    rw [zadd_cast, zmul_cast, hash_cast]; ring

/-- Interpolation of `β + x·ry` from its values at 0 and 1. -/
theorem interp_linear (hG : G.Ok) {A : Type} [AddCommGroup A] (hA : ∀ y : A, (G.r : Int) • y = 0) (g : A) (b ry x : Int) {e : Int}
    (he : (e : ZMod G.r) = b + x * ry) : interpExp G x [0, 1] (b • g) (ry • g + b • g) = .ok (e • g) := by
  have := Fact.mk hG.prime
  have hr := hG.prime.two_le
  have r0 : (0 : Int) ≤ 0 ∧ (0 : Int) ≤ G.r := ⟨le_refl _, by omega⟩
  have r1 : (0 : Int) ≤ 1 ∧ (1 : Int) ≤ G.r := ⟨by omega, by omega⟩
  rcases zdiv_spec hG (zsub G x 1) (zsub_range hG r0 r1) with ⟨h1, -⟩ | ⟨-, z, h2, h3⟩
  · rw [zsub_cast] at h1; push_cast at h1; simp at h1
  rcases zdiv_spec hG (zsub G x 0) (zsub_range hG r1 r0) with ⟨k1, -⟩ | ⟨-, z', k2, k3⟩
  · rw [zsub_cast] at k1; push_cast at k1; simp at k1
  have e0 : lagrange G 0 x [0, 1] = .ok (zmul G 1 z) := by
    simp [lagrange, lagrangeStep, h2]
  have e1 : lagrange G 1 x [0, 1] = .ok (zmul G 1 z') := by
    simp [lagrange, lagrangeStep, k2]
  rw [interpExp, e0, e1, Res.bind_ok, Res.bind_ok]
  show Res.ok _ = Res.ok _
  congr 1
  rw [zero_add, smul_add, ← mul_zsmul, ← mul_zsmul, ← mul_zsmul, ← add_zsmul, ← add_zsmul]
  apply smul_congr hA
  rw [zsub_cast, zsub_cast] at h3 k3
  push_cast at h3 k3 ⊢
  rw [zmul_cast, zmul_cast, he]
  push_cast
  linear_combination (-(b : ZMod G.r)) * h3 + ((b : ZMod G.r) + ry) * k3

/-- **C50.** Encryption with the public key and encryption with the secret parameters are the same function. -/
theorem c50_encrypt_public (hG : G.Ok) (sp : Params) (x m : Nat) (tag : Bytes) : encryptPk G (publicKey G sp) x m tag = encryptSp G sp x m tag := by
  rw [encryptPk, encryptSp, blindPk, blindSp]
  by_cases ht : tag = nullTag
  · simp only [if_pos ht, Res.bind_exc]
  simp only [if_neg ht]
  have hv : vx G (publicKey G sp).qG1 tag = .ok (zadd G sp.beta (zmul G (hashToZR G tag) sp.ry) • G.g1) := by
    rw [vx, publicKey]
    apply interp_linear hG hG.tor1
    rw [zadd_cast, zmul_cast]
  rw [hv]
  have e1 : powGT (G.pair (publicKey G sp).g2G1 (publicKey G sp).ppkeg1) (randomZR G x) =
      powGT G.gT (zmul G (zmul G sp.alpha sp.beta) (randomZR G x)) := by
    rw [powGT_eq, powGT_eq]
    show (randomZR G x) • G.pair (sp.beta • G.g1) (sp.alpha • G.g2) = _
    rw [pair_gen hG, ← mul_zsmul]
    apply smul_congr hG.torT
    rw [zmul_cast, zmul_cast]; push_cast; ring
  simp only [Res.bind_ok, e1]
  rw [smul_comm (randomZR G x)]
  rfl

/-! ## Decryption of objects -/

theorem xor_cancel (a b : Nat) : a ^^^ (a ^^^ b) = b := by rw [← Nat.xor_assoc, Nat.xor_self, Nat.zero_xor]

theorem isPunctured_false {sk : List (Share G2)} {tag : Bytes} : isPunctured sk tag = false ↔ ∀ s ∈ sk, s.sk4 ≠ tag := by
  simp [isPunctured]

theorem isPunctured_true {sk : List (Share G2)} {tag : Bytes} : isPunctured sk tag = true ↔ ∃ s ∈ sk, s.sk4 = tag := by
  simp [isPunctured]

/-- Decrypting with good shares whose contents sum to `α`. -/
theorem decryptBool_good (hG : G.Ok) {sp : Params} {sk : List (Share G2)} {cs : List (ZMod G.r)} {x m m0 : Nat} {tag : Bytes} {c : Ct G1}
    (hl : tag.length = 16) (hs : List.Forall₂ (Good G sp) sk cs) (hsum : cs.sum = sp.alpha) (hc : encryptSp G sp x m tag = .ok c)
    (h : ∀ sh ∈ sk, tagVal G tag ≠ tagVal G sh.sk4) : decryptBool G sk c m0 = .ok (true, m) := by
  have ht : tag ≠ nullTag := by
    intro ht
    rw [encryptSp, blindSp, if_pos ht] at hc
    simp [Res.bind_exc] at hc
  obtain ⟨e, he⟩ := ZMod.intCast_surjective ((x : ZMod G.r) * (sp.beta : ZMod G.r) * (sp.alpha : ZMod G.r))
  obtain ⟨c', h1, h2, h3, h4⟩ := encryptSp_eq hG sp x m hl ht he
  rw [h1] at hc
  injection hc with hc
  subst hc
  have hp : isPunctured sk c'.tag = false := by
    rw [isPunctured_false]
    intro s hs' heq
    exact h s hs' (by rw [heq, h2])
  have hb := recoverBlind_good hG hs h4 (by rw [h2]; exact h) (e := e) (by rw [he, hsum, randomZR_cast])
  rw [decryptBool, hp, decryptUnchecked, hb]
  simp only [Res.bind_ok, Bool.false_eq_true, if_false]
  rw [h2, mask_ok hG hl, h3]
  simp only [Res.bind_ok]
  show Res.ok _ = Res.ok _
  rw [xor_cancel]

/-! ## Bytes -/

theorem shareBytes_roundtrip (hG : G.Ok) {s : Share G2} (hl : s.sk4.length = 16) {b : Bytes} (h : shareBytes G s = .ok b) :
    b.length = 211 ∧ shareOfBytes G b = .ok s ∧ extractTag b = s.sk4 := by
  have w : ∀ {x : G2} {b : Bytes}, write2 G x = .ok b → b = G.enc2 x ∧ b.length = 65 ∧ G.dec2 b = .ok x := by
    intro x b h
    rw [write2] at h
    split at h
    · next hx =>
      injection h with h
      subst h
      refine ⟨rfl, hx, hG.dec2_enc2 x ?_⟩
      rintro rfl
      rw [hG.enc2_zero] at hx; omega
    · exact absurd h (by simp)
  rw [shareBytes] at h
  obtain ⟨a, ha, h⟩ := Res.bind_eq_ok.1 h
  obtain ⟨b', hb, h⟩ := Res.bind_eq_ok.1 h
  obtain ⟨c, hc, h⟩ := Res.bind_eq_ok.1 h
  have h : a ++ (b' ++ (c ++ s.sk4)) = b := by injection h
  subst h
  obtain ⟨-, la, da⟩ := w ha
  obtain ⟨-, lb, db⟩ := w hb
  obtain ⟨-, lc, dc⟩ := w hc
  refine ⟨by simp [la, lb, lc, hl], ?_, ?_⟩
  · rw [shareOfBytes, List.take_left' la, da, List.drop_left' la, List.take_left' lb, db]
    have e2 : (a ++ (b' ++ (c ++ s.sk4))).drop (2 * 65) = c ++ s.sk4 := by
      rw [← List.append_assoc, List.drop_left' (by simp [la, lb])]
    have e3 : (a ++ (b' ++ (c ++ s.sk4))).drop (3 * 65) = s.sk4 := by
      rw [← List.append_assoc, ← List.append_assoc, List.drop_left' (by simp [la, lb, lc])]
    rw [e2, e3, List.take_left' lc, dc, List.take_of_length_le (by omega)]
    rfl
  · rw [extractTag, ← List.append_assoc, ← List.append_assoc, List.drop_left' (by simp [la, lb, lc, hl])]

theorem ctBytes_roundtrip (hG : G.Ok) {c : Ct G1} (hl : c.tag.length = 16) (h1 : c.ct1 < 2 ^ 64) {b : Bytes} (h : ctBytes G c = .ok b) :
    b.length = 90 ∧ ctOfBytes G b = .ok c ∧ extractTag b = c.tag := by
  have w : ∀ {x : G1} {b : Bytes}, write1 G x = .ok b → b = G.enc1 x ∧ b.length = 33 ∧ G.dec1 b = .ok x := by
    intro x b h
    rw [write1] at h
    split at h
    · next hx =>
      injection h with h
      subst h
      refine ⟨rfl, hx, hG.dec1_enc1 x ?_⟩
      rintro rfl
      rw [hG.enc1_zero] at hx; omega
    · exact absurd h (by simp)
  rw [ctBytes] at h
  obtain ⟨a, ha, h⟩ := Res.bind_eq_ok.1 h
  obtain ⟨b', hb, h⟩ := Res.bind_eq_ok.1 h
  have h : leBytes 8 c.ct1 ++ (a ++ (b' ++ c.tag)) = b := by injection h
  subst h
  obtain ⟨-, la, da⟩ := w ha
  obtain ⟨-, lb, db⟩ := w hb
  have l8 : (leBytes 8 c.ct1).length = 8 := by simp
  refine ⟨by simp [la, lb, hl], ?_, ?_⟩
  · rw [ctOfBytes]
    simp only [List.drop_left' l8, List.take_left' l8]
    rw [List.take_left' la, da, List.drop_left' la, List.take_left' lb, db]
    have e2 : (a ++ (b' ++ c.tag)).drop (2 * 33) = c.tag := by
      rw [← List.append_assoc, List.drop_left' (by simp [la, lb])]
    rw [e2, List.take_of_length_le (by omega)]
    simp only [Res.bind_ok]
    rw [leNat_leBytes, Nat.mod_eq_of_lt (by simpa using h1)]
    rfl
  · rw [extractTag, ← List.append_assoc, ← List.append_assoc, List.drop_left' (by simp [la, lb, hl])]


/-! ## C49: decryption with a punctured key -/

/-- Two tags are different and stay different after hashing. -/
def Distinct (G : Grp G1 G2 GT) (t u : Bytes) : Prop := tagVal G t ≠ tagVal G u

/-- A key made of the initial share for `d` punctures and of one share for each of the tags `ts` (numbered from `i`). -/
inductive Shares (G : Grp G1 G2 GT) (asserts : Bool) (prf : Bytes → Bytes) : Nat → List Bytes → List Bytes → Prop
  | nil (i) : Shares G asserts prf i [] []
  | cons {i t ts b bs} : incPuncture G asserts prf i t = .ok b → Shares G asserts prf (i + 1) ts bs → Shares G asserts prf i (t :: ts) (b :: bs)

theorem shares_good (hG : G.Ok) {asserts : Bool} {prf : Bytes → Bytes} {i : Nat} {ts bs : List Bytes} (hi : 1 ≤ i) (hl : ∀ t ∈ ts, t.length = 16)
    (h : Shares G asserts prf i ts bs) : ∃ sk cs, readKey G bs = .ok sk ∧ sk.map (·.sk4) = ts ∧ List.Forall₂ (Good G (paramgen G prf)) sk cs ∧
      cs.sum = lVal G prf (paramgen G prf) (i - 1 + ts.length) - lVal G prf (paramgen G prf) (i - 1) := by
  induction h with
  | nil i => exact ⟨[], [], rfl, rfl, .nil, by simp⟩
  | @cons i t ts b bs hb _ ih =>
    obtain ⟨sk, cs, h1, h2, h3, h4⟩ := ih (by omega) (fun t ht => hl t (List.mem_cons_of_mem _ ht))
    rw [incPuncture] at hb
    obtain ⟨s, hs, hb⟩ := Res.bind_eq_ok.1 hb
    obtain ⟨q1, q2⟩ := skShareGen_good hi hs
    obtain ⟨-, r1, -⟩ := shareBytes_roundtrip hG (by rw [q1]; exact hl t (List.mem_cons_self ..)) hb
    refine ⟨s :: sk, _ :: cs, ?_, by simp [q1, h2], .cons q2 h3, ?_⟩
    · rw [readKey, r1, Res.bind_ok, h1]; rfl
    · rw [List.sum_cons, h4, List.length_cons]
      have e1 : i + 1 - 1 = i := by omega
      have e2 : i - 1 + (ts.length + 1) = i + ts.length := by omega
      rw [e1, e2]; ring

theorem nullTag_length : nullTag.length = 16 := rfl

theorem key_good (hG : G.Ok) {asserts : Bool} {prf : Bytes → Bytes} {d : Nat} {b0 : Bytes} {ts bs : List Bytes} (hl : ∀ t ∈ ts, t.length = 16)
    (h0 : initialKeyshare G prf d = .ok b0) (h : Shares G asserts prf 1 ts bs) :
    ∃ sk cs, readKey G (b0 :: bs) = .ok sk ∧ sk.map (·.sk4) = nullTag :: ts ∧ List.Forall₂ (Good G (paramgen G prf)) sk cs ∧
      cs.sum = (paramgen G prf).alpha + lVal G prf (paramgen G prf) ts.length - lVal G prf (paramgen G prf) d := by
  obtain ⟨sk, cs, h1, h2, h3, h4⟩ := shares_good hG (le_refl 1) hl h
  rw [initialKeyshare] at h0
  have hn : (sk0Gen G prf (paramgen G prf) d).sk4 = nullTag := by rw [sk0Gen]; split <;> rfl
  obtain ⟨-, r1, -⟩ := shareBytes_roundtrip hG (by rw [hn]; rfl) h0
  refine ⟨_ :: sk, _ :: cs, ?_, by simp [hn, h2], .cons (sk0Gen_good prf (paramgen G prf) d) h3, ?_⟩
  · rw [readKey, r1, Res.bind_ok, h1]; rfl
  · rw [List.sum_cons, h4]
    have e : lVal G prf (paramgen G prf) (1 - 1) = -((paramgen G prf).alpha : ZMod G.r) := by simp [lVal]
    rw [e, show 1 - 1 + ts.length = ts.length by omega]; ring

theorem ct1_lt (hG : G.Ok) {sp : Params} {x m : Nat} (hm : m < 2 ^ 64) {tag : Bytes} (hl : tag.length = 16) {c : Ct G1}
    (h : encryptSp G sp x m tag = .ok c) : c.ct1 < 2 ^ 64 ∧ c.tag = tag := by
  have ht : tag ≠ nullTag := by
    intro ht
    rw [encryptSp, blindSp, if_pos ht] at h
    simp [Res.bind_exc] at h
  obtain ⟨e, he⟩ := ZMod.intCast_surjective ((x : ZMod G.r) * (sp.beta : ZMod G.r) * (sp.alpha : ZMod G.r))
  obtain ⟨c', h1, h2, h3, -⟩ := encryptSp_eq hG sp x m hl ht he
  rw [h1] at h
  injection h with h
  subst h
  refine ⟨?_, h2⟩
  rw [h3]
  apply Nat.xor_lt_two_pow _ hm
  refine lt_of_lt_of_le (leNat_lt _) ?_
  calc 256 ^ (List.take 8 (Mac.HMAC G.H tag (G.encT (e • G.gT)))).length ≤ 256 ^ 8 :=
        Nat.pow_le_pow_right (by omega) (by simp)
    _ = 2 ^ 64 := by norm_num

/-- **C49.** A key punctured on `t₁ … t_d` decrypts the ciphertexts of all other tags (whose hashes are different). -/
theorem c49_decrypt (hG : G.Ok) {asserts : Bool} {prf : Bytes → Bytes} {ts bs : List Bytes} {b0 : Bytes} (hl : ∀ t ∈ ts, t.length = 16)
    (h0 : initialKeyshare G prf ts.length = .ok b0) (h : Shares G asserts prf 1 ts bs)
    {x m m0 : Nat} {tag ct : Bytes} (hm : m < 2 ^ 64) (htl : tag.length = 16) (hc : encrypt G prf x m tag = .ok ct)
    (hd : ∀ u ∈ nullTag :: ts, Distinct G tag u) : decrypt G (b0 :: bs) ct m0 = .ok (true, m) := by
  obtain ⟨sk, cs, h1, h2, h3, h4⟩ := key_good hG hl h0 h
  rw [encrypt] at hc
  obtain ⟨c, hc, hb⟩ := Res.bind_eq_ok.1 hc
  obtain ⟨q1, q2⟩ := ct1_lt hG hm htl hc
  obtain ⟨-, r1, -⟩ := ctBytes_roundtrip hG (by rw [q2]; exact htl) q1 hb
  rw [decrypt, h1, r1]
  refine decryptBool_good hG htl h3 (by rw [h4]; ring) hc ?_
  intro s hs
  apply hd
  rw [← h2]
  exact List.mem_map_of_mem hs

/-- **C49.** For a punctured tag, decryption returns false and leaves the output variable as it was. -/
theorem c49_punctured (hG : G.Ok) {asserts : Bool} {prf : Bytes → Bytes} {d : Nat} {ts bs : List Bytes} {b0 : Bytes} (hl : ∀ t ∈ ts, t.length = 16)
    (h0 : initialKeyshare G prf d = .ok b0) (h : Shares G asserts prf 1 ts bs)
    {x m m0 : Nat} {tag ct : Bytes} (hm : m < 2 ^ 64) (hc : encrypt G prf x m tag = .ok ct) (hin : tag ∈ ts) :
    decrypt G (b0 :: bs) ct m0 = .ok (false, m0) := by
  have htl := hl tag hin
  obtain ⟨sk, cs, h1, h2, -, -⟩ := key_good hG hl h0 h
  rw [encrypt] at hc
  obtain ⟨c, hc, hb⟩ := Res.bind_eq_ok.1 hc
  obtain ⟨q1, q2⟩ := ct1_lt hG hm htl hc
  obtain ⟨-, r1, -⟩ := ctBytes_roundtrip hG (by rw [q2]; exact htl) q1 hb
  rw [decrypt, h1, r1]
  have : isPunctured sk c.tag = true := by
    rw [isPunctured_true, q2]
    have : tag ∈ sk.map (·.sk4) := by rw [h2]; exact List.mem_cons_of_mem _ hin
    simpa using this
  simp only [Res.bind_ok, decryptBool, this, if_true]

/-- The factors of shares one of which has a colliding hash. -/
theorem factors_collision (hG : G.Ok) {sk : List (Share G2)} {ct : Ct G1} (h : ∃ sh ∈ sk, tagVal G ct.tag = tagVal G sh.sk4) :
    factors G sk ct = .exc .logicError := by
  induction sk with
  | nil => simp at h
  | cons s r ih =>
    rw [factors]
    by_cases hs : tagVal G ct.tag = tagVal G s.sk4
    · rw [shareFactor_collision hG s ct hs]; rfl
    · obtain ⟨z, hz⟩ := shareFactor_noncollision hG s ct hs
      rw [hz, ih]
      · rfl
      · obtain ⟨sh, hm, he⟩ := h
        rcases List.mem_cons.1 hm with rfl | hm
        · exact absurd he hs
        · exact ⟨sh, hm, he⟩

/-- **C49.** If the tag is not punctured but its hash collides with the hash of a share, decryption throws: it never returns a wrong message. -/
theorem c49_collision (hG : G.Ok) {asserts : Bool} {prf : Bytes → Bytes} {d : Nat} {ts bs : List Bytes} {b0 : Bytes} (hl : ∀ t ∈ ts, t.length = 16)
    (h0 : initialKeyshare G prf d = .ok b0) (h : Shares G asserts prf 1 ts bs)
    {x m m0 : Nat} {tag ct : Bytes} (hm : m < 2 ^ 64) (htl : tag.length = 16) (hc : encrypt G prf x m tag = .ok ct) (hin : tag ∉ ts)
    (hd : ∃ u ∈ nullTag :: ts, ¬ Distinct G tag u) : decrypt G (b0 :: bs) ct m0 = .exc .logicError := by
  obtain ⟨sk, cs, h1, h2, -, -⟩ := key_good hG hl h0 h
  rw [encrypt] at hc
  obtain ⟨c, hc, hb⟩ := Res.bind_eq_ok.1 hc
  obtain ⟨q1, q2⟩ := ct1_lt hG hm htl hc
  obtain ⟨-, r1, -⟩ := ctBytes_roundtrip hG (by rw [q2]; exact htl) q1 hb
  have hn : tag ≠ nullTag := by
    intro ht
    rw [encryptSp, blindSp, if_pos ht] at hc
    simp [Res.bind_exc] at hc
  rw [decrypt, h1, r1]
  have hp : isPunctured sk c.tag = false := by
    rw [isPunctured_false, q2]
    intro s hs he
    have : s.sk4 ∈ nullTag :: ts := by rw [← h2]; exact List.mem_map_of_mem hs
    rw [he] at this
    rcases List.mem_cons.1 this with h | h
    · exact hn h
    · exact hin h
  have hf : factors G sk c = .exc .logicError := by
    apply factors_collision hG
    obtain ⟨u, hu, hd⟩ := hd
    rw [← h2] at hu
    obtain ⟨s, hs, rfl⟩ := List.mem_map.1 hu
    exact ⟨s, hs, by rw [q2]; exact not_not.1 hd⟩
  simp [decryptBool, hp, decryptUnchecked, recoverBlind, hf]

/-- **C49.** When encryption succeeds: the ciphertext has 90 bytes; the reserved tag is refused; the only other failure is a group element at
    infinity (a multiple of the order as randomness, or a tag with `β + h·ry = 0`), which fails an assertion. -/
theorem c49_encrypt (hG : G.Ok) (prf : Bytes → Bytes) (x m : Nat) (tag : Bytes) (htl : tag.length = 16) :
    (tag = nullTag ∧ encrypt G prf x m tag = .exc .invalidArgument) ∨
    (tag ≠ nullTag ∧ ((x : ZMod G.r) = 0 ∨ prfVal G prf lblBeta + tagVal G tag * prfVal G prf lblRy = 0) ∧ encrypt G prf x m tag = .ub) ∨
    (tag ≠ nullTag ∧ (x : ZMod G.r) ≠ 0 ∧ prfVal G prf lblBeta + tagVal G tag * prfVal G prf lblRy ≠ 0 ∧
      ∃ ct, encrypt G prf x m tag = .ok ct ∧ ct.length = 90) := by
  have := Fact.mk hG.prime
  by_cases ht : tag = nullTag
  · exact Or.inl ⟨ht, by rw [encrypt, encryptSp, blindSp, if_pos ht]; rfl⟩
  right
  obtain ⟨e, he⟩ := ZMod.intCast_surjective ((x : ZMod G.r) * ((paramgen G prf).beta : ZMod G.r) * ((paramgen G prf).alpha : ZMod G.r))
  obtain ⟨c, h1, h2, h3, f, k1, k2, k3⟩ := encryptSp_eq hG (paramgen G prf) x m htl ht he
  have hb : ((paramgen G prf).beta : ZMod G.r) = prfVal G prf lblBeta := pseudoRandomZR_cast G prf _
  have hy : ((paramgen G prf).ry : ZMod G.r) = prfVal G prf lblRy := pseudoRandomZR_cast G prf _
  rw [hb, hy, randomZR_cast, h2] at k3
  have z2 : c.ct2 = 0 ↔ (x : ZMod G.r) = 0 := by
    rw [k1, smul_eq_zero hG.prime hG.tor1 hG.g1_ne, randomZR_cast]
  have z3 : c.ct3 = 0 ↔ ((x : ZMod G.r) = 0 ∨ prfVal G prf lblBeta + tagVal G tag * prfVal G prf lblRy = 0) := by
    rw [k2, smul_eq_zero hG.prime hG.tor1 hG.g1_ne, k3, mul_eq_zero]
  have w0 : ∀ y : G1, y = 0 → write1 G y = .ub := by
    rintro y rfl
    rw [write1, if_neg (by rw [hG.enc1_zero]; omega)]
  have w1 : ∀ y : G1, y ≠ 0 → write1 G y = .ok (G.enc1 y) := by
    intro y hy
    rw [write1, if_pos (hG.enc1_len y hy)]
  by_cases hx : (x : ZMod G.r) = 0
  · refine Or.inl ⟨ht, Or.inl hx, ?_⟩
    rw [encrypt, h1, Res.bind_ok, ctBytes, w0 _ (z2.2 hx)]; rfl
  · by_cases hh : prfVal G prf lblBeta + tagVal G tag * prfVal G prf lblRy = 0
    · refine Or.inl ⟨ht, Or.inr hh, ?_⟩
      rw [encrypt, h1, Res.bind_ok, ctBytes, w1 _ (fun h => hx (z2.1 h)), w0 _ (z3.2 (Or.inr hh))]; rfl
    · refine Or.inr ⟨ht, hx, hh, ?_⟩
      have q2 : c.ct2 ≠ 0 := fun h => hx (z2.1 h)
      have q3 : c.ct3 ≠ 0 := fun h => by
        rcases z3.1 h with h | h
        · exact hx h
        · exact hh h
      refine ⟨_, by rw [encrypt, h1, Res.bind_ok, ctBytes, w1 _ q2, w1 _ q3]; rfl, ?_⟩
      simp [hG.enc1_len _ q2, hG.enc1_len _ q3, h2, htl]

/-- **C49.** What a key with the wrong number of shares recovers: the blinding value for `α + l_n - l_d` instead of `α`.  (So the initial share
    must be the one for exactly the number of punctures.) -/
theorem c49_blind (hG : G.Ok) {asserts : Bool} {prf : Bytes → Bytes} {d : Nat} {ts bs : List Bytes} {b0 : Bytes} (hl : ∀ t ∈ ts, t.length = 16)
    (h0 : initialKeyshare G prf d = .ok b0) (h : Shares G asserts prf 1 ts bs) {x m : Nat} {tag : Bytes} (htl : tag.length = 16) {c : Ct G1}
    (hc : encryptSp G (paramgen G prf) x m tag = .ok c) (hd : ∀ u ∈ nullTag :: ts, Distinct G tag u) {e : Int}
    (he : (e : ZMod G.r) = x * prfVal G prf lblBeta * (prfVal G prf lblAlpha + lVal G prf (paramgen G prf) ts.length - lVal G prf (paramgen G prf) d)) :
    ∃ sk, readKey G (b0 :: bs) = .ok sk ∧ recoverBlind G sk c = .ok (e • G.gT) := by
  obtain ⟨sk, cs, h1, h2, h3, h4⟩ := key_good hG hl h0 h
  have ht : tag ≠ nullTag := by
    intro ht
    rw [encryptSp, blindSp, if_pos ht] at hc
    simp [Res.bind_exc] at hc
  obtain ⟨f, hf⟩ := ZMod.intCast_surjective ((x : ZMod G.r) * ((paramgen G prf).beta : ZMod G.r) * ((paramgen G prf).alpha : ZMod G.r))
  obtain ⟨c', q1, q2, q3, q4⟩ := encryptSp_eq hG (paramgen G prf) x m htl ht hf
  rw [q1] at hc
  injection hc with hc
  subst hc
  refine ⟨sk, h1, recoverBlind_good hG h3 q4 ?_ ?_⟩
  · intro s hs
    rw [q2]
    apply hd
    rw [← h2]
    exact List.mem_map_of_mem hs
  · rw [he, h4, randomZR_cast]
    have hb : ((paramgen G prf).beta : ZMod G.r) = prfVal G prf lblBeta := pseudoRandomZR_cast G prf _
    have hy : ((paramgen G prf).alpha : ZMod G.r) = prfVal G prf lblAlpha := pseudoRandomZR_cast G prf _
    rw [hb, hy]

/-! ## C50: order of the shares, in-place puncture -/

theorem factors_perm (hG : G.Ok) {sk sk' : List (Share G2)} (h : sk.Perm sk') (ct : Ct G1) :
    (∃ zs zs', factors G sk ct = .ok zs ∧ factors G sk' ct = .ok zs' ∧ zs.Perm zs') ∨
    (factors G sk ct = .exc .logicError ∧ factors G sk' ct = .exc .logicError) := by
  by_cases hc : ∃ sh ∈ sk, tagVal G ct.tag = tagVal G sh.sk4
  · right
    refine ⟨factors_collision hG hc, factors_collision hG ?_⟩
    obtain ⟨s, hs, he⟩ := hc
    exact ⟨s, h.mem_iff.1 hs, he⟩
  · left
    have key : ∀ l : List (Share G2), (∀ s ∈ l, tagVal G ct.tag ≠ tagVal G s.sk4) →
        factors G l ct = .ok (l.map fun s => match shareFactor G s ct with | .ok z => z | _ => 0) := by
      intro l
      induction l with
      | nil => intro _; rfl
      | cons s r ih =>
        intro hl
        obtain ⟨z, hz⟩ := shareFactor_noncollision hG s ct (hl s (List.mem_cons_self ..))
        rw [factors, hz, ih (fun s hs => hl s (List.mem_cons_of_mem _ hs)), List.map_cons, hz]; rfl
    refine ⟨_, _, key sk (fun s hs he => hc ⟨s, hs, he⟩), key sk' (fun s hs he => hc ⟨s, h.mem_iff.2 hs, he⟩), h.map _⟩

/-- **C50.** The order of the shares of a key does not matter, for any shares and any ciphertext. -/
theorem c50_order (hG : G.Ok) {sk sk' : List (Share G2)} (h : sk.Perm sk') (ct : Ct G1) (m0 : Nat) :
    decryptBool G sk ct m0 = decryptBool G sk' ct m0 ∧ decryptThrow G sk ct = decryptThrow G sk' ct := by
  have hp : isPunctured sk ct.tag = isPunctured sk' ct.tag := by
    rw [Bool.eq_iff_iff, isPunctured_true, isPunctured_true]
    constructor
    · rintro ⟨s, hs, he⟩; exact ⟨s, h.mem_iff.1 hs, he⟩
    · rintro ⟨s, hs, he⟩; exact ⟨s, h.mem_iff.2 hs, he⟩
  have hr : recoverBlind G sk ct = recoverBlind G sk' ct := by
    rcases factors_perm hG h ct with ⟨zs, zs', h1, h2, h3⟩ | ⟨h1, h2⟩
    · rw [recoverBlind, recoverBlind, h1, h2]
      simp only [Res.bind_ok, foldl_add_eq_sum, h3.sum_eq]
    · rw [recoverBlind, recoverBlind, h1, h2]
  rw [decryptBool, decryptBool, decryptThrow, decryptThrow, hp, decryptUnchecked, decryptUnchecked, hr]
  exact ⟨rfl, rfl⟩

/-- The keys that in-place puncturing produces from a freshly generated key, with the list of punctured tags. -/
inductive Punctured (G : Grp G1 G2 GT) (asserts : Bool) (sp : Params) : List Bytes → List (Share G2) → Prop
  | fresh (rr) : Punctured G asserts sp [] [skgen G sp rr]
  | step {ts sk sk'} (t x0 x1 xl) : Punctured G asserts sp ts sk → t.length = 16 → puncture G asserts (publicKey G sp) sk t x0 x1 xl = .ok sk' →
      Punctured G asserts sp (ts ++ [t]) sk'

theorem puncture_ok (hG : G.Ok) (asserts : Bool) (sp : Params) {e0 : Share G2} {rest : List (Share G2)} {c0 : ZMod G.r} {t : Bytes}
    (h0 : e0.sk4 = nullTag) (hg : Good G sp e0 c0) (ht : t ≠ nullTag) (x0 x1 xl : Nat) :
    ∃ a b, puncture G asserts (publicKey G sp) (e0 :: rest) t x0 x1 xl = .ok (a :: rest ++ [b]) ∧ a.sk4 = nullTag ∧ b.sk4 = t ∧
      Good G sp a (c0 - xl) ∧ Good G sp b xl := by
  have hv : ∀ u : Bytes, vx G (publicKey G sp).qG2 u = .ok (zadd G sp.beta (zmul G (hashToZR G u) sp.ry) • G.g2) := by
    intro u
    rw [vx, publicKey]
    apply interp_linear hG hG.tor2
    rw [zadd_cast, zmul_cast]
  obtain ⟨rho, a1, a2, k3, k1, k2, q1, q2⟩ := hg
  have hna : ¬ (asserts && e0.sk4 != nullTag) = true := by simp [h0]
  simp only [puncture, if_neg ht, if_neg hna, hv, Res.bind_ok]
  refine ⟨_, _, rfl, h0, rfl, ?_, ?_⟩
  · refine ⟨rho + randomZR G x0, a1 + zsub G (randomZR G x0) (randomZR G xl) * sp.beta,
      a2 + randomZR G x0 * zadd G sp.beta (zmul G (hashToZR G nullTag) sp.ry), ?_, ?_, ?_, ?_, ?_⟩
    · simp only [k3, publicKey, add_zsmul]
    · simp only [k1, publicKey, add_zsmul, mul_zsmul]
    · simp only [k2, add_zsmul, mul_zsmul]
    · push_cast; rw [zsub_cast, randomZR_cast, randomZR_cast, q1]; ring
    · push_cast; rw [zadd_cast, zmul_cast, hash_cast, q2]; simp only [h0]; ring
  · refine ⟨randomZR G x1, zadd G (randomZR G x1) (randomZR G xl) * sp.beta,
      randomZR G x1 * zadd G sp.beta (zmul G (hashToZR G t) sp.ry), ?_, ?_, ?_, ?_, ?_⟩
    · rfl
    · simp only [publicKey, mul_zsmul]
    · simp only [mul_zsmul]
    · push_cast; rw [zadd_cast, randomZR_cast, randomZR_cast]; ring
    · push_cast; rw [zadd_cast, zmul_cast, hash_cast]

theorem punctured_good (hG : G.Ok) {asserts : Bool} {sp : Params} {ts : List Bytes} {sk : List (Share G2)} (h : Punctured G asserts sp ts sk) :
    ∃ e0 rest c0 cs, sk = e0 :: rest ∧ e0.sk4 = nullTag ∧ rest.map (·.sk4) = ts ∧ Good G sp e0 c0 ∧ List.Forall₂ (Good G sp) rest cs ∧
      c0 + cs.sum = sp.alpha := by
  induction h with
  | fresh rr => exact ⟨_, [], _, [], rfl, rfl, rfl, skgen_good sp rr, .nil, by simp⟩
  | @step ts sk sk' t x0 x1 xl _ _ hp ih =>
    obtain ⟨e0, rest, c0, cs, rfl, h1, h2, h3, h4, h5⟩ := ih
    have ht : t ≠ nullTag := by
      intro ht
      rw [puncture, if_pos ht] at hp
      simp at hp
    obtain ⟨a, b, k1, k2, k3, k4, k5⟩ := puncture_ok hG asserts sp (rest := rest) h1 h3 ht x0 x1 xl
    rw [k1] at hp
    injection hp with hp
    subst hp
    refine ⟨a, rest ++ [b], _, cs ++ [(xl : ZMod G.r)], rfl, k2, by simp [h2, k3], k4, ?_, ?_⟩
    · exact List.rel_append h4 (.cons k5 .nil)
    · rw [List.sum_append, ← h5]; simp

/-- **C50.** In-place puncturing never fails on a key obtained by key generation and puncturing, except for the reserved tag. -/
theorem c50_puncture_total (hG : G.Ok) {asserts : Bool} {sp : Params} {ts : List Bytes} {sk : List (Share G2)} (h : Punctured G asserts sp ts sk)
    {t : Bytes} (ht : t ≠ nullTag) (x0 x1 xl : Nat) : ∃ sk', puncture G asserts (publicKey G sp) sk t x0 x1 xl = .ok sk' := by
  obtain ⟨e0, rest, c0, cs, rfl, h1, h2, h3, h4, h5⟩ := punctured_good hG h
  obtain ⟨a, b, k1, -⟩ := puncture_ok hG asserts sp (rest := rest) h1 h3 ht x0 x1 xl
  exact ⟨_, k1⟩

/-- **C50.** A key punctured in place decrypts exactly like a key of incrementally generated shares: the message for the tags that are not
    punctured, a refusal for the punctured ones; for ciphertexts made with the public key or with the secret parameters. -/
theorem c50_puncture (hG : G.Ok) {asserts : Bool} {sp : Params} {ts : List Bytes} {sk : List (Share G2)} (h : Punctured G asserts sp ts sk)
    {x m m0 : Nat} {tag : Bytes} (htl : tag.length = 16) {c : Ct G1}
    (hc : encryptSp G sp x m tag = .ok c ∨ encryptPk G (publicKey G sp) x m tag = .ok c) :
    (tag ∈ ts → decryptBool G sk c m0 = .ok (false, m0) ∧ decryptThrow G sk c = .exc .invalidArgument) ∧
    ((∀ u ∈ nullTag :: ts, Distinct G tag u) → decryptBool G sk c m0 = .ok (true, m) ∧ decryptThrow G sk c = .ok m) := by
  rw [c50_encrypt_public hG, or_self] at hc
  have hn : tag ≠ nullTag := by
    intro ht
    rw [encryptSp, blindSp, if_pos ht] at hc
    simp [Res.bind_exc] at hc
  obtain ⟨e, he⟩ := ZMod.intCast_surjective ((x : ZMod G.r) * (sp.beta : ZMod G.r) * (sp.alpha : ZMod G.r))
  have hct : c.tag = tag := by
    obtain ⟨c', h1, h2, -⟩ := encryptSp_eq hG sp x m htl hn he
    rw [h1] at hc
    injection hc with hc
    rw [← hc, h2]
  obtain ⟨e0, rest, c0, cs, rfl, h1, h2, h3, h4, h5⟩ := punctured_good hG h
  constructor
  · intro hin
    have hp : isPunctured (e0 :: rest) c.tag = true := by
      rw [isPunctured_true, hct]
      rw [← h2] at hin
      obtain ⟨s, hs, he⟩ := List.mem_map.1 hin
      exact ⟨s, List.mem_cons_of_mem _ hs, he⟩
    rw [decryptBool, decryptThrow, if_pos hp, if_pos hp]
    exact ⟨rfl, rfl⟩
  · intro hd
    have hall : ∀ s ∈ e0 :: rest, tagVal G tag ≠ tagVal G s.sk4 := by
      intro s hs
      rcases List.mem_cons.1 hs with rfl | hs
      · rw [h1]; exact hd _ (List.mem_cons_self ..)
      · exact hd _ (List.mem_cons_of_mem _ (by rw [← h2]; exact List.mem_map_of_mem hs))
    have hb := decryptBool_good hG (m0 := m0) htl (.cons h3 h4) (by rw [List.sum_cons, h5]) hc hall
    refine ⟨hb, ?_⟩
    have hp : isPunctured (e0 :: rest) c.tag = false := by
      rw [isPunctured_false, hct]
      intro s hs he
      exact hall s hs (by rw [he])
    rw [decryptBool, hp] at hb
    rw [decryptThrow, hp]
    simp only [Bool.false_eq_true, if_false] at hb ⊢
    obtain ⟨y, h1, h2⟩ := Res.bind_eq_ok.1 hb
    have h2 : (true, y) = (true, m) := by injection h2
    rw [h1, (Prod.mk.inj h2).2]

/-! ## C51: the reserved tag, and extraction of tags -/

/-- **C51 (partial: not for incremental puncturing, see below).** Encrypting (with either key) and in-place puncturing on the reserved tag throw. -/
theorem c51_reserved_partial (asserts : Bool) (prf : Bytes → Bytes) (sp : Params) (pk : Public G1 G2) (sk : List (Share G2)) (x m x0 x1 xl : Nat) :
    encrypt G prf x m nullTag = .exc .invalidArgument ∧ encryptSp G sp x m nullTag = .exc .invalidArgument ∧
    encryptPk G pk x m nullTag = .exc .invalidArgument ∧ puncture G asserts pk sk nullTag x0 x1 xl = .exc .invalidArgument :=
  ⟨rfl, rfl, rfl, rfl⟩

/-- **C51 fails for incremental puncturing.** On the reserved tag it throws no exception: with assertions it aborts, without it makes a share. -/
theorem c51_inc_puncture_false (prf : Bytes → Bytes) (d : Nat) :
    incPuncture G true prf d nullTag = .ub ∧
    ∃ s, skShareGen G false prf (paramgen G prf) d nullTag = .ok s ∧ s.sk4 = nullTag ∧ incPuncture G false prf d nullTag = shareBytes G s := by
  refine ⟨by simp [incPuncture, skShareGen], ?_⟩
  have : ∃ s, skShareGen G false prf (paramgen G prf) d nullTag = .ok s ∧ s.sk4 = nullTag := by
    rw [skShareGen, if_neg (by simp)]; exact ⟨_, rfl, rfl⟩
  obtain ⟨s, h1, h2⟩ := this
  exact ⟨s, h1, h2, by rw [incPuncture, h1]; rfl⟩

/-- **C51.** `extract_tag` of a ciphertext, of an initial share and of an incremental share returns the tag. -/
theorem c51_extract (hG : G.Ok) {asserts : Bool} {prf : Bytes → Bytes} {tag b : Bytes} (htl : tag.length = 16) :
    (∀ {x m : Nat}, m < 2 ^ 64 → encrypt G prf x m tag = .ok b → extractTag b = tag) ∧
    (∀ {d : Nat}, incPuncture G asserts prf d tag = .ok b → extractTag b = tag ∧ b.length = 211) ∧
    (∀ {d : Nat}, initialKeyshare G prf d = .ok b → extractTag b = nullTag ∧ b.length = 211) := by
  refine ⟨fun {x m} hm h => ?_, fun {d} h => ?_, fun {d} h => ?_⟩
  · rw [encrypt] at h
    obtain ⟨c, hc, hb⟩ := Res.bind_eq_ok.1 h
    obtain ⟨q1, q2⟩ := ct1_lt hG hm htl hc
    rw [(ctBytes_roundtrip hG (by rw [q2]; exact htl) q1 hb).2.2, q2]
  · rw [incPuncture] at h
    obtain ⟨s, hs, hb⟩ := Res.bind_eq_ok.1 h
    have q : s.sk4 = tag := by
      rw [skShareGen] at hs
      split at hs
      · exact absurd hs (by simp)
      · injection hs with hs; subst hs; rfl
    obtain ⟨h1, -, h3⟩ := shareBytes_roundtrip hG (by rw [q]; exact htl) hb
    exact ⟨by rw [h3, q], h1⟩
  · rw [initialKeyshare] at h
    have hn : (sk0Gen G prf (paramgen G prf) d).sk4 = nullTag := by rw [sk0Gen]; split <;> rfl
    obtain ⟨h1, -, h3⟩ := shareBytes_roundtrip hG (by rw [hn]; rfl) h
    exact ⟨by rw [h3, hn], h1⟩

/-- **C51.** Serialization: a share or a ciphertext without a point at infinity can be written, and is read back unchanged. -/
theorem c51_share_roundtrip (hG : G.Ok) (s : Share G2) (hl : s.sk4.length = 16) (h1 : s.sk1 ≠ 0) (h2 : s.sk2 ≠ 0) (h3 : s.sk3 ≠ 0) :
    ∃ b, shareBytes G s = .ok b ∧ b.length = 211 ∧ shareOfBytes G b = .ok s ∧ extractTag b = s.sk4 := by
  have : ∃ b, shareBytes G s = .ok b := by
    simp only [shareBytes, write2, if_pos (hG.enc2_len _ h1), if_pos (hG.enc2_len _ h2), if_pos (hG.enc2_len _ h3), Res.bind_ok]
    exact ⟨_, rfl⟩
  obtain ⟨b, hb⟩ := this
  obtain ⟨k1, k2, k3⟩ := shareBytes_roundtrip hG hl hb
  exact ⟨b, hb, k1, k2, k3⟩

theorem c51_ct_roundtrip (hG : G.Ok) (c : Ct G1) (hl : c.tag.length = 16) (hm : c.ct1 < 2 ^ 64) (h2 : c.ct2 ≠ 0) (h3 : c.ct3 ≠ 0) :
    ∃ b, ctBytes G c = .ok b ∧ b.length = 90 ∧ ctOfBytes G b = .ok c ∧ extractTag b = c.tag := by
  have : ∃ b, ctBytes G c = .ok b := by
    simp only [ctBytes, write1, if_pos (hG.enc1_len _ h2), if_pos (hG.enc1_len _ h3), Res.bind_ok]
    exact ⟨_, rfl⟩
  obtain ⟨b, hb⟩ := this
  obtain ⟨k1, k2, k3⟩ := ctBytes_roundtrip hG hl hm hb
  exact ⟨b, hb, k1, k2, k3⟩

/-! ## C52: the labels of the PRF -/

theorem decimal_inj {a b : Nat} (h : decimal a = decimal b) : a = b := by
  have hd : ∀ n : Nat, decimal n = if n = 0 then [0x30] else ((Nat.digits 10 n).map fun k => UInt8.ofNat (0x30 + k)).reverse := fun _ => rfl
  -- the first digit of a positive number is not zero
  have hpos : ∀ n : Nat, n ≠ 0 → decimal n ≠ [0x30] := by
    intro n hn he
    rw [hd, if_neg hn, List.reverse_eq_cons_iff] at he
    simp only [List.reverse_nil, List.nil_append] at he
    obtain ⟨k, hk, hk2⟩ := List.map_eq_singleton_iff.1 he
    have hlt : k < 10 := Nat.digits_lt_base (b := 10) (m := n) (by omega) (by rw [hk]; simp)
    have hz : k ≠ 0 := by
      have := Nat.getLast_digit_ne_zero 10 hn
      simpa [hk] using this
    have := congrArg UInt8.toNat hk2
    rw [UInt8.toNat_ofNat', Nat.mod_eq_of_lt (by omega)] at this
    simp at this
    omega
  by_cases ha : a = 0
  · by_cases hb : b = 0
    · omega
    · exact absurd (by rw [← h, ha]; rfl) (hpos b hb)
  · by_cases hb : b = 0
    · exact absurd (by rw [h, hb]; rfl) (hpos a ha)
    · rw [hd, hd, if_neg ha, if_neg hb] at h
      have h := List.reverse_injective h
      have inv : ∀ n : Nat, ((Nat.digits 10 n).map fun k => UInt8.ofNat (0x30 + k)).map (fun c : UInt8 => c.toNat - 0x30) = Nat.digits 10 n := by
        intro n
        rw [List.map_map]
        conv_rhs => rw [← List.map_id (Nat.digits 10 n)]
        apply List.map_congr_left
        intro k hk
        have := Nat.digits_lt_base (b := 10) (by omega) hk
        show (UInt8.ofNat (0x30 + k)).toNat - 0x30 = k
        rw [UInt8.toNat_ofNat', Nat.mod_eq_of_lt (by omega)]; omega
      apply Nat.digits_inj_iff.1
      rw [← inv a, ← inv b, h]

/-- What the PRF is used for. -/
inductive Use
  | alpha | beta | ry | r
  | rho (d : Nat) | l (d : Nat) | r1 (d : Nat)

/-- The label for each use. -/
def Use.label : Use → Bytes
  | .alpha => lblAlpha | .beta => lblBeta | .ry => lblRy | .r => lblR
  | .rho d => lblRho d | .l d => lblL d | .r1 d => lblR1 d

theorem lblAlpha_eq : lblAlpha = [112, 97, 114, 97, 109, 95, 97, 108, 112, 104, 97] := by decide +kernel
theorem lblBeta_eq : lblBeta = [112, 97, 114, 97, 109, 95, 98, 101, 116, 97] := by decide +kernel
theorem lblRy_eq : lblRy = [112, 97, 114, 97, 109, 95, 114, 121] := by decide +kernel
theorem lblR_eq : lblR = [112, 97, 114, 97, 109, 95, 114] := by decide +kernel
theorem lblRho_eq (d : Nat) : lblRho d = [112, 97, 114, 97, 109, 95, 114, 104, 111, 95] ++ decimal d := by
  rw [lblRho, show "param_rho_".toUTF8.toList = [112, 97, 114, 97, 109, 95, 114, 104, 111, 95] by decide +kernel]
theorem lblL_eq (d : Nat) : lblL d = [112, 97, 114, 97, 109, 95, 108, 95] ++ decimal d := by
  rw [lblL, show "param_l_".toUTF8.toList = [112, 97, 114, 97, 109, 95, 108, 95] by decide +kernel]
theorem lblR1_eq (d : Nat) : lblR1 d = [112, 97, 114, 97, 109, 95, 114, 49, 95] ++ decimal d := by
  rw [lblR1, show "param_r1_".toUTF8.toList = [112, 97, 114, 97, 109, 95, 114, 49, 95] by decide +kernel]

theorem rho0_eq : "param_rho_0".toUTF8.toList = lblRho 0 := by decide +kernel

/-- **C52.** Different uses have different labels. -/
theorem c52_labels (u v : Use) (h : u.label = v.label) : u = v := by
  cases u <;> cases v <;> simp only [Use.label, lblAlpha_eq, lblBeta_eq, lblRy_eq, lblR_eq, lblRho_eq, lblL_eq, lblR1_eq, List.append_cancel_left_eq] at h <;>
    first
    | rfl
    | (rw [decimal_inj h])
    | simp at h

/-- **C52.** So all secrets are independent: any choice of the master parameters and of the scalars of every initial and incremental share is
    produced by some function in the place of the PRF (with outputs of `n` bytes). -/
theorem c52_independent (n : Nat) (hn : G.r ≤ 256 ^ n) (a b y : Nat) (ha : a < G.r) (hb : b < G.r) (hy : y < G.r)
    (rho l r1 : Nat → Nat) (hrho : ∀ d, rho d < G.r) (hl : ∀ d, l d < G.r) (hr1 : ∀ d, r1 d < G.r) :
    ∃ prf : Bytes → Bytes, (∀ x, (prf x).length = n) ∧ paramgen G prf = ⟨a, b, y⟩ ∧
      (∀ d, (sk0Gen G prf (paramgen G prf) d).sk3 = (rho d : Int) • G.g2) ∧
      (sk0Gen G prf (paramgen G prf) 0).sk1 = zmul G b (zadd G (rho 0) a) • G.g2 ∧
      (∀ d, 1 ≤ d → (sk0Gen G prf (paramgen G prf) d).sk1 = zmul G b (zsub G (rho d) (l d)) • G.g2) ∧
      (∀ d tag, 1 ≤ d → tag ≠ nullTag → ∃ s, skShareGen G true prf (paramgen G prf) d tag = .ok s ∧ s.sk3 = (r1 d : Int) • G.g2 ∧
        s.sk1 = zmul G b (zadd G (zsub G (l d) (if d = 1 then zneg G a else l (d - 1))) (r1 d)) • G.g2) := by
  classical
  let v : Use → Nat := fun | .alpha => a | .beta => b | .ry => y | .r => 0 | .rho d => rho d | .l d => l d | .r1 d => r1 d
  have hv : ∀ u, v u < G.r := by
    intro u
    cases u
    · exact ha
    · exact hb
    · exact hy
    · show 0 < G.r; omega
    · exact hrho _
    · exact hl _
    · exact hr1 _
  let prf : Bytes → Bytes := fun x => if h : ∃ u : Use, u.label = x then beBytes n (v h.choose) else List.replicate n 0
  have hp : ∀ u : Use, pseudoRandomZR G prf u.label = v u := by
    intro u
    have hex : ∃ u' : Use, u'.label = u.label := ⟨u, rfl⟩
    have e : prf u.label = beBytes n (v u) := by
      show (if h : ∃ u' : Use, u'.label = u.label then _ else _) = _
      rw [dif_pos hex, c52_labels _ _ hex.choose_spec]
    rw [pseudoRandomZR, e, beNat_beBytes_of_lt (lt_of_lt_of_le (hv u) hn)]
    exact Int.emod_eq_of_lt (by omega) (by have := hv u; omega)
  have pa : pseudoRandomZR G prf lblAlpha = a := hp .alpha
  have pb : pseudoRandomZR G prf lblBeta = b := hp .beta
  have py : pseudoRandomZR G prf lblRy = y := hp .ry
  have prho : ∀ d, pseudoRandomZR G prf (lblRho d) = rho d := fun d => hp (.rho d)
  have pl : ∀ d, pseudoRandomZR G prf (lblL d) = l d := fun d => hp (.l d)
  have pr1 : ∀ d, pseudoRandomZR G prf (lblR1 d) = r1 d := fun d => hp (.r1 d)
  have hpg : paramgen G prf = ⟨a, b, y⟩ := by rw [paramgen, pa, pb, py]
  refine ⟨prf, ?_, hpg, ?_, ?_, ?_, ?_⟩
  · intro x
    show (if h : ∃ u : Use, u.label = x then _ else _ : Bytes).length = n
    split <;> simp
  · intro d
    rw [sk0Gen]
    by_cases hd : d = 0
    · simp only [hd, if_true, rho0_eq, prho]
    · simp only [hd, if_false, prho]
  · simp only [sk0Gen, if_true, rho0_eq, prho, hpg]
  · intro d hd
    rw [sk0Gen]
    simp only [show d ≠ 0 by omega, if_false, prho, pl, hpg]
  · intro d tag hd ht
    have hna : ¬ (true && (d == 0 || tag == nullTag)) = true := by simp [ht]; omega
    rw [skShareGen, if_neg hna]
    refine ⟨_, rfl, by simp only [pr1], ?_⟩
    simp only [hpg, pl, pr1, prevL]
    by_cases h1 : d = 1
    · rw [if_neg (by omega), if_pos h1]
    · rw [if_pos (by omega), if_neg h1]

/-! ## Examples -/

/-- A group where every law can be checked: `ℤ/251`, with multiplication as the pairing. -/
def toy : Grp (ZMod 251) (ZMod 251) (ZMod 251) where
  r := 251
  g1 := 1
  g2 := 3
  gT := 3
  pair x y := x * y
  cofactor a := ((a : ZMod 251)⁻¹.val : Int)
  sha b := b.drop (b.length - 1)
  enc1 x := if x = 0 then [0] else 2 :: beBytes 32 x.val
  dec1 b := .ok (beNat (b.drop 1) : ZMod 251)
  enc2 x := if x = 0 then [0] else 2 :: beBytes 64 x.val
  dec2 b := .ok (beNat (b.drop 1) : ZMod 251)
  encT x := beBytes 384 x.val
  H := Mac.toyH
  junk := fun _ => 0

theorem toy_ok : toy.Ok := by
  have hp : Nat.Prime 251 := by norm_num
  have n1 : (1 : ZMod 251) ≠ 0 := by decide +kernel
  have n3 : (3 : ZMod 251) ≠ 0 := by decide +kernel
  have := Fact.mk hp
  have tor : ∀ x : ZMod 251, ((251 : Nat) : Int) • x = 0 := by
    intro x
    rw [zsmul_eq_mul]; push_cast
    rw [show (251 : ZMod 251) = 0 from ZMod.natCast_self 251, zero_mul]
  have rt : ∀ (n : Nat) (x : ZMod 251), 32 ≤ n → (beNat (List.drop 1 (2 :: beBytes n x.val)) : ZMod 251) = x := by
    intro n x hn
    rw [List.drop_succ_cons, List.drop_zero, beNat_beBytes_of_lt]
    · exact ZMod.natCast_zmod_val x
    · exact lt_of_lt_of_le (ZMod.val_lt x) (le_trans (by norm_num : 251 ≤ 256 ^ 32) (Nat.pow_le_pow_right (by omega) hn))
  refine ⟨hp, tor, tor, tor, ?_, ?_, ?_, ?_, ?_, ?_, ?_, ?_, ?_, ?_, ?_, ?_, ?_, ?_, ?_⟩
  · exact n1
  · exact n3
  · intro x x' y; exact add_mul x x' y
  · intro x y y'; exact mul_add x y y'
  · exact one_mul (3 : ZMod 251)
  · intro a h0 h1
    have ha : (a : ZMod 251) ≠ 0 := by
      rw [Ne, ZMod.intCast_zmod_eq_zero_iff_dvd]
      intro hd
      have := Int.eq_zero_of_dvd_of_nonneg_of_lt (le_of_lt h0) h1 hd
      omega
    show ((251 : Nat) : Int) ∣ a * (((a : ZMod 251)⁻¹.val : Nat) : Int) - 1
    rw [← ZMod.intCast_zmod_eq_zero_iff_dvd]
    push_cast
    rw [ZMod.natCast_zmod_val, mul_inv_cancel₀ ha, sub_self]
  · intro a _ _
    show -((251 : Nat) : Int) ≤ (((a : ZMod 251)⁻¹.val : Nat) : Int)
    omega
  · intro x hx; show (if x = 0 then [0] else 2 :: beBytes 32 x.val : Bytes).length = 33; rw [if_neg hx]; simp
  · rfl
  · intro x hx
    show Res.ok (beNat (List.drop 1 (if x = 0 then [0] else 2 :: beBytes 32 x.val)) : ZMod 251) = _
    rw [if_neg hx, rt _ _ (by omega)]
  · intro x hx; show (if x = 0 then [0] else 2 :: beBytes 64 x.val : Bytes).length = 65; rw [if_neg hx]; simp
  · rfl
  · intro x hx
    show Res.ok (beNat (List.drop 1 (if x = 0 then [0] else 2 :: beBytes 64 x.val)) : ZMod 251) = _
    rw [if_neg hx, rt _ _ (by omega)]
  · intro x; simp only [toy, beBytes_length]
  · exact Mac.toyH_length


def exPrf (x : Bytes) : Bytes := beBytes 4 (leNat (x.drop 6) + 77 * x.length)
def tagA : Bytes := List.replicate 16 1
def tagB : Bytes := List.replicate 16 2
def tagC : Bytes := List.replicate 16 3

def Res.good {α : Type} : Res α → Bool
  | .ok _ => true
  | _ => false

theorem Res.good_iff {α : Type} {x : Res α} : Res.good x = true ↔ ∃ a, x = .ok a := by
  cases x <;> simp [Res.good]

theorem ex_b0 : ∃ b, initialKeyshare toy exPrf 2 = .ok b := Res.good_iff.1 (by decide +kernel)
theorem ex_b1 : ∃ b, incPuncture toy true exPrf 1 tagA = .ok b := Res.good_iff.1 (by decide +kernel)
theorem ex_b2 : ∃ b, incPuncture toy true exPrf 2 tagB = .ok b := Res.good_iff.1 (by decide +kernel)
theorem ex_ctA : ∃ b, encrypt toy exPrf 12345 42 tagA = .ok b := Res.good_iff.1 (by decide +kernel)
theorem ex_ctC : ∃ b, encrypt toy exPrf 12345 42 tagC = .ok b := Res.good_iff.1 (by decide +kernel)

theorem ex_distinct : ∀ u ∈ nullTag :: [tagA, tagB], Distinct toy tagC u := by
  unfold Distinct tagVal
  decide +kernel

/-- A key punctured on two tags: a third tag is decrypted, a punctured one is refused. -/
example : ∃ b0 b1 b2 ctA ctC, initialKeyshare toy exPrf 2 = .ok b0 ∧ incPuncture toy true exPrf 1 tagA = .ok b1 ∧
    incPuncture toy true exPrf 2 tagB = .ok b2 ∧ encrypt toy exPrf 12345 42 tagA = .ok ctA ∧ encrypt toy exPrf 12345 42 tagC = .ok ctC ∧
    decrypt toy [b0, b1, b2] ctC 7 = .ok (true, 42) ∧ decrypt toy [b0, b1, b2] ctA 7 = .ok (false, 7) ∧ extractTag ctC = tagC := by
  obtain ⟨b0, h0⟩ := ex_b0
  obtain ⟨b1, h1⟩ := ex_b1
  obtain ⟨b2, h2⟩ := ex_b2
  obtain ⟨ctA, hA⟩ := ex_ctA
  obtain ⟨ctC, hC⟩ := ex_ctC
  have hs : Shares toy true exPrf 1 [tagA, tagB] [b1, b2] := .cons h1 (.cons h2 (.nil _))
  have hl : ∀ t ∈ [tagA, tagB], t.length = 16 := by decide
  exact ⟨b0, b1, b2, ctA, ctC, h0, h1, h2, hA, hC, c49_decrypt toy_ok hl h0 hs (by decide) rfl hC ex_distinct,
    c49_punctured toy_ok hl h0 hs (by decide) hA (by simp), (c51_extract toy_ok (asserts := true) rfl).1 (by decide) hC⟩

/-- Encryption fails with an assertion when the random scalar is a multiple of the order. -/
example : encrypt toy exPrf 251 42 tagA = .ub := by
  rcases c49_encrypt toy_ok exPrf 251 42 tagA rfl with h | h | h
  · exact absurd h.1 (by decide)
  · exact h.2.2
  · exact absurd (show ((251 : Nat) : ZMod 251) = 0 from ZMod.natCast_self 251) h.2.1

/-- A key punctured in place. -/
example : ∃ sk c, Punctured toy true (paramgen toy exPrf) [tagA, tagB] sk ∧ encryptPk toy (publicKey toy (paramgen toy exPrf)) 12345 42 tagC = .ok c ∧
    decryptBool toy sk c 7 = .ok (true, 42) := by
  have f := Punctured.fresh (G := toy) (asserts := true) (sp := paramgen toy exPrf) 5
  obtain ⟨s1, h1⟩ := c50_puncture_total toy_ok f (t := tagA) (by decide) 11 12 13
  have f1 := Punctured.step tagA 11 12 13 f rfl h1
  obtain ⟨s2, h2⟩ := c50_puncture_total toy_ok f1 (t := tagB) (by decide) 21 22 23
  have f2 := Punctured.step tagB 21 22 23 f1 rfl h2
  obtain ⟨c, hc, -⟩ := encryptSp_eq toy_ok (paramgen toy exPrf) 12345 42 (tag := tagC) rfl (by decide)
    (e := 12345 * (paramgen toy exPrf).beta * (paramgen toy exPrf).alpha) (by push_cast; rfl)
  exact ⟨s2, c, f2, by rw [c50_encrypt_public toy_ok]; exact hc, ((c50_puncture toy_ok f2 rfl (Or.inl hc)).2 ex_distinct).1⟩

/-- The order of the shares. -/
example (a b : Share (ZMod 251)) (c : Ct (ZMod 251)) : decryptBool toy [a, b] c 0 = decryptBool toy [b, a] c 0 :=
  (c50_order toy_ok (List.Perm.swap b a []) c 0).1

/-- Some function in the place of the PRF gives prescribed scalars. -/
example : ∃ prf : Bytes → Bytes, (∀ x, (prf x).length = 4) ∧ paramgen toy prf = ⟨1, 2, 3⟩ ∧ (sk0Gen toy prf (paramgen toy prf) 7).sk3 = (7 : Int) • toy.g2 := by
  obtain ⟨prf, h1, h2, h3, -⟩ := c52_independent (G := toy) 4 (by decide) 1 2 3 (by decide) (by decide) (by decide) (fun d => d % 251) (fun _ => 9)
    (fun _ => 8) (fun d => Nat.mod_lt _ (by decide)) (fun _ => by decide) (fun _ => by decide)
  exact ⟨prf, h1, h2, h3 7⟩

def tagD : Bytes := List.replicate 15 9 ++ [0]

theorem ex_ctD : ∃ b, encrypt toy exPrf 12345 42 tagD = .ok b := Res.good_iff.1 (by decide +kernel)

/-- A tag whose hash is that of the reserved tag: decryption throws. -/
example : ∃ b0 b1 b2 ctD, initialKeyshare toy exPrf 2 = .ok b0 ∧ incPuncture toy true exPrf 1 tagA = .ok b1 ∧
    incPuncture toy true exPrf 2 tagB = .ok b2 ∧ encrypt toy exPrf 12345 42 tagD = .ok ctD ∧ decrypt toy [b0, b1, b2] ctD 7 = .exc .logicError := by
  obtain ⟨b0, h0⟩ := ex_b0
  obtain ⟨b1, h1⟩ := ex_b1
  obtain ⟨b2, h2⟩ := ex_b2
  obtain ⟨ctD, hD⟩ := ex_ctD
  exact ⟨b0, b1, b2, ctD, h0, h1, h2, hD, c49_collision toy_ok (ts := [tagA, tagB]) (by decide) h0 (.cons h1 (.cons h2 (.nil _))) (by decide) rfl hD
    (by decide) ⟨nullTag, by simp, by unfold Distinct tagVal; decide +kernel⟩⟩

example : ∃ b, shareBytes toy ⟨1, 2, 3, tagA⟩ = .ok b ∧ b.length = 211 ∧ shareOfBytes toy b = .ok ⟨1, 2, 3, tagA⟩ ∧ extractTag b = tagA :=
  c51_share_roundtrip toy_ok ⟨1, 2, 3, tagA⟩ rfl (by decide +kernel) (by decide +kernel) (by decide +kernel)

example : ∃ b, ctBytes toy ⟨77, 2, 3, tagA⟩ = .ok b ∧ b.length = 90 ∧ ctOfBytes toy b = .ok ⟨77, 2, 3, tagA⟩ ∧ extractTag b = tagA :=
  c51_ct_roundtrip toy_ok ⟨77, 2, 3, tagA⟩ rfl (by decide) (by decide +kernel) (by decide +kernel)

end Verif.Ppke
