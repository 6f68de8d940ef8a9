import Verif.Scrub.PropsSym
import Verif.Ppke.Props

/-!
# What the trapdoor permutation, the puncturable encryption and the tree of keys leave in memory
-/

namespace Verif.Scrub

open Verif Verif.Mac

/-! ## The trapdoor permutation -/

theorem writeZeroed_length (x : Nat) : (Tdp.writeZeroed x).length = Tdp.msgSize := by
  unfold Tdp.writeZeroed Tdp.mpiWrite
  split_ifs
  · exact List.length_replicate ..
  · exact beBytes_length _ _

theorem copyIn_length {s a : Bytes} (h : Tdp.copyIn s = .ok a) : a.length = Tdp.msgSize := by
  unfold Tdp.copyIn at h
  split_ifs at h with hl
  injection h with h
  rw [← h, List.length_take]
  omega

theorem evalArray_length {k : Tdp.Rsa} {a o : Bytes} (h : Tdp.evalArray k a = .ok o) : o.length = Tdp.msgSize := by
  unfold Tdp.evalArray at h
  split_ifs at h with hl
  cases h1 : Tdp.mpiMod (beNat a : Int) k.N with
  | none => rw [h1] at h; cases h
  | some x =>
    rw [h1] at h
    simp only [Tdp.orThrow, Res.bind_ok] at h
    cases h2 : Tdp.mpiExpMod x k.E k.N with
    | none => rw [h2] at h; cases h
    | some y =>
      rw [h2] at h
      simp only [Res.bind_ok, Tdp.writeIgnored, Tdp.mpiWrite] at h
      split_ifs at h
      injection h with h
      rw [← h, beBytes_length]

/-- `eval` of a string: the result is the one of the model of C37; both arrays are erased. -/
theorem c109_eval (junk : Nat → UInt8) (k : Tdp.Rsa) (s : Bytes) :
    (evalString junk k s).res = Tdp.evalString k s ∧
      ∀ o, (evalString junk k s).res = .ok o → (evalString junk k s).left = [List.replicate Tdp.msgSize 0, List.replicate Tdp.msgSize 0] := by
  unfold evalString Tdp.evalString
  split_ifs with h0
  · exact ⟨rfl, nofun⟩
  simp only [Z.run, Z.lift_bind]
  cases h1 : Tdp.copyIn s with
  | ub => exact ⟨rfl, nofun⟩
  | exc e => exact ⟨rfl, nofun⟩
  | ok a =>
    have ha := copyIn_length h1
    have e0 : putAt (rawBuf junk Tdp.msgSize) 0 a = .ok a := putAt_all (by rw [ha, rawBuf_length])
    simp only [Z.upd_bind, e0, Res.map_ok, Z.get_bind, Z.lift_bind, Res.bind_ok]
    cases h2 : Tdp.evalArray k a with
    | ub => exact ⟨rfl, nofun⟩
    | exc e => exact ⟨rfl, nofun⟩
    | ok o =>
      simp only [memzero_eq ha, Res.map_ok, Option.getD_some, memzero_eq (evalArray_length h2), Z.pure_run]
      exact ⟨trivial, fun _ _ => rfl⟩

/-- A small modulus, of which the functions see 256 bytes. -/
def exRsa : Tdp.Rsa := ⟨256, 3233, 17, none, none⟩

example : ∃ o, (evalString (fun _ => 5) exRsa (List.replicate 256 7)).res = .ok o ∧ o ≠ [] := by
  refine ⟨beBytes 256 ((beNat (List.replicate 256 7) % 3233) ^ 17 % 3233), ?_, ?_⟩
  · rw [(c109_eval _ _ _).1]
    decide +kernel
  · decide +kernel

/-- `sample`: the result is the one of the model of C40; the array is erased. -/
theorem c109_sample (rng : Nat → Nat → Nat) (k : Tdp.Rsa) (i : Nat) :
    (sample rng k i).res = Tdp.sample rng k i ∧ ∀ b ∈ (sample rng k i).left, Erased b := by
  unfold sample
  simp only [Z.run, Z.lift_bind]
  cases h : Tdp.sample rng k i with
  | ub => exact ⟨rfl, nofun⟩
  | exc e => exact ⟨rfl, nofun⟩
  | ok o =>
    have hl : o.length = Tdp.msgSize := by
      unfold Tdp.sample at h
      cases h1 : Tdp.mpiMod (rng i 264 : Int) k.N with
      | none => rw [h1] at h; cases h
      | some x =>
        rw [h1] at h
        injection h with h
        rw [← h]
        exact writeZeroed_length x
    simp only [Z.upd_bind, Option.getD_some, memzero_eq hl, Res.map_ok, Z.pure_run]
    refine ⟨trivial, ?_⟩
    intro b hb
    simp only [List.nil_append, Option.toList_some, List.mem_cons, List.not_mem_nil, or_false] at hb
    rw [hb]
    exact erased_replicate _

/-- `invert` of a string: the result is the one of the model of C37; the buffer with the preimage is erased. -/
theorem c109_invert (junk : Nat → UInt8) (rng : Nat → Nat → Nat) (k : Tdp.Rsa) (i : Nat) (s : Bytes) :
    (invertString junk rng k i s).res = (Tdp.invertString rng k i s).1 ∧ Tidy junk (invertString junk rng k i s) := by
  unfold invertString
  simp only [Z.run, Z.lift_bind]
  cases h : (Tdp.invertString rng k i s).1 with
  | ub => exact ⟨rfl, Tidy.of_ub rfl⟩
  | exc e =>
    refine ⟨rfl, Tidy.of_exc rfl ?_⟩
    intro b hb
    simp only [List.nil_append, List.mem_cons, List.not_mem_nil, or_false] at hb
    rw [hb]
    exact .inr (untouched_raw _ _)
  | ok o =>
    have hl : o.length = Tdp.msgSize := by
      unfold Tdp.invertString Tdp.invertBuf at h
      split_ifs at h
      simp only [] at h
      cases hr : (Tdp.rsaPrivate rng k i (s.take k.len)).out with
      | none => rw [hr] at h; cases h
      | some b =>
        rw [hr] at h
        simp only [] at h
        split_ifs at h with hb
        injection h with h
        rw [← h, hb]
    have e0 : putAt (rawBuf junk Tdp.msgSize) 0 o = .ok o := putAt_all (by rw [hl, rawBuf_length])
    simp only [Z.upd_bind, e0, Z.get_bind, memzero_eq hl, Z.pure_run]
    refine ⟨by rw [List.take_of_length_le (by omega)], Tidy.of_ok rfl ?_⟩
    intro b hb
    simp only [List.nil_append, List.mem_cons, List.not_mem_nil, or_false] at hb
    rw [hb]
    exact erased_replicate _

/-- `invert_mult` of a string: the result is the one of the model of C38; the array with the preimage is erased, the one with the input is not. -/
theorem c109_invert_mult (junk : Nat → UInt8) (k : Tdp.Rsa) (s : Bytes) (order : Nat) :
    (invertMultString junk k s order).res = Tdp.invertMultString k s order ∧
      ∀ o, (invertMultString junk k s order).res = .ok o →
        (invertMultString junk k s order).left = [s.take Tdp.msgSize, List.replicate Tdp.msgSize 0] := by
  unfold invertMultString Tdp.invertMultString
  simp only [Z.run, Z.lift_bind]
  cases h1 : Tdp.copyIn s with
  | ub => exact ⟨rfl, nofun⟩
  | exc e => exact ⟨rfl, nofun⟩
  | ok a =>
    have ha := copyIn_length h1
    have hs : a = s.take Tdp.msgSize := by
      unfold Tdp.copyIn at h1
      split_ifs at h1
      injection h1 with h1
      exact h1.symm
    have e0 : putAt (rawBuf junk Tdp.msgSize) 0 a = .ok a := putAt_all (by rw [ha, rawBuf_length])
    simp only [Z.upd_bind, e0, Res.map_ok, Z.get_bind, Z.lift_bind, Res.bind_ok]
    cases h2 : Tdp.invertMult k a order with
    | ub => exact ⟨rfl, nofun⟩
    | exc e => exact ⟨rfl, nofun⟩
    | ok o =>
      have ho : o.length = Tdp.msgSize := by
        unfold Tdp.invertMult at h2
        split_ifs at h2 with hx hy
        · injection h2 with h2
          rw [← h2, ha]
        · cases hp : k.priv with
          | none => rw [hp] at h2; cases h2
          | some sk =>
            rw [hp] at h2
            simp only [] at h2
            cases hc : Tdp.crtMult sk (beNat a) order with
            | none => rw [hc] at h2; cases h2
            | some y =>
              rw [hc] at h2
              simp only [Tdp.orThrow, Res.bind_ok, Tdp.mpiWrite] at h2
              split_ifs at h2
              injection h2 with h2
              rw [← h2, beBytes_length]
      simp only [Res.map_ok, Option.getD_some, memzero_eq ho, Z.pure_run]
      exact ⟨trivial, fun _ _ => by rw [hs]; rfl⟩

/-- `generate`: the result is the one of the model of C40.  The array `rnd` with the output of the pseudo-random function is not erased, and the
token is this number modulo the public modulus: whoever finds the array and knows the public key has the token, although the array with the
token itself was erased. -/
theorem c109_generate_false (H : Bytes → Bytes) (junk : Nat → UInt8) (fuel : Nat) (key : Option Bytes) (k : Tdp.Rsa) (seed : Bytes) (rnd t : Bytes)
    (hp : Mac.prfString H junk key 264 fuel seed = some (.ok rnd)) (hg : Tdp.generate H junk fuel key k seed = some (.ok t)) :
    (generate H junk fuel key k seed).res = .ok t ∧ rnd ∈ (generate H junk fuel key k seed).left ∧
      Tdp.writeZeroed (beNat rnd % k.N) = t ∧ ∀ b ∈ (generate H junk fuel key k seed).left, b = rnd ∨ Erased b := by
  have hp' : Mac.prf H junk key 264 fuel (some seed) = some (.ok rnd) := hp
  obtain ⟨e1, e2⟩ := c109_prf H junk key (some seed) 264 fuel _ hp'
  have hc : key.isSome := by
    cases key with
    | some k => rfl
    | none =>
      cases fuel with
      | zero => cases hp'
      | succ f =>
        obtain ⟨_, hx, _⟩ := c109_prf_empty_false H junk seed 264 f (by omega)
        rw [e1] at hx
        cases hx
  unfold Tdp.generate at hg
  rw [hp] at hg
  simp only [Option.map_some, Option.some.injEq, Res.bind_ok] at hg
  cases hm : Tdp.mpiMod (beNat rnd : Int) k.N with
  | none => rw [hm] at hg; cases hg
  | some x =>
    rw [hm] at hg
    simp only [Tdp.orThrow, Res.bind_ok] at hg
    injection hg with hg
    have hx : x = beNat rnd % k.N := by
      unfold Tdp.mpiMod at hm
      split_ifs at hm with h0
      injection hm with hm
      rw [← hm]
      omega
    have ht : t.length = Tdp.msgSize := by rw [← hg]; exact writeZeroed_length x
    have ea : generateArray H junk fuel key k seed = ⟨(prf H junk key 264 fuel (some seed)).left ++ [rnd], .ok t⟩ := by
      unfold generateArray
      simp only [Z.run, Z.call_bind, e1, Z.upd_bind, Z.lift_bind, hm, Tdp.orThrow, Z.pure_run, hg, List.append_nil, Option.toList_some]
    have eg : generate H junk fuel key k seed =
        ⟨(prf H junk key 264 fuel (some seed)).left ++ [rnd] ++ [List.replicate Tdp.msgSize 0], .ok t⟩ := by
      unfold generate
      simp only [Z.run, Z.call_bind, ea, Z.upd_bind, Option.getD_some, memzero_eq ht, Res.map_ok, Z.pure_run, List.append_nil, Option.toList_some]
    rw [eg]
    refine ⟨rfl, by simp, by rw [← hx]; exact hg, ?_⟩
    intro b hb
    simp only [List.mem_append, List.mem_cons, List.not_mem_nil, or_false] at hb
    rcases hb with (hb | rfl) | rfl
    · have := e2 (.inl hc)
      unfold Tidy at this
      rw [e1] at this
      exact .inr (this b hb)
    · exact .inl rfl
    · exact .inr (erased_replicate _)

example : ∃ rnd t, Mac.prfString toyH (fun _ => 9) (some (List.replicate 32 1)) 264 1024 [5, 6] = some (.ok rnd) ∧
    Tdp.generate toyH (fun _ => 9) 1024 (some (List.replicate 32 1)) exRsa [5, 6] = some (.ok t) := by
  have h := c17_prf toyH_length (fun _ => 9) (List.replicate 32 1) [5, 6] (by decide) 264 (by decide) 1024 (by decide)
  refine ⟨prfSpec toyH (List.replicate 32 1) [5, 6] 264, Tdp.writeZeroed (beNat (prfSpec toyH (List.replicate 32 1) [5, 6] 264) % 3233), h, ?_⟩
  unfold Tdp.generate Mac.prfString exRsa
  rw [h]
  generalize prfSpec toyH (List.replicate 32 1) [5, 6] 264 = r
  have : ((beNat r : Int) % ((3233 : Nat) : Int)).toNat = beNat r % 3233 := by omega
  simp only [Option.map_some, Res.bind_ok, Tdp.mpiMod, Nat.reduceEqDiff, if_false, Tdp.orThrow, this, Res.pure_eq]

/-! ## The puncturable encryption -/

section Ppke

variable {G1 G2 GT : Type} [AddCommGroup G1] [AddCommGroup G2] [AddCommGroup GT] (G : Ppke.Grp G1 G2 GT)

omit [AddCommGroup G1] [AddCommGroup G2] [AddCommGroup GT] in
/-- `pseudoRandomZR`: the result is the one of the model of C52.  The output of the pseudo-random function is not erased, and the secret scalar
is this number modulo the group order. -/
theorem c109_scalar_false (prf : Bytes → Bytes) (seed : Bytes) :
    (pseudoRandomZR G prf seed).res = .ok (Ppke.pseudoRandomZR G prf seed) ∧ (pseudoRandomZR G prf seed).left = [prf seed] ∧
      ∀ b ∈ (pseudoRandomZR G prf seed).left, (beNat b : Int) % G.r = Ppke.pseudoRandomZR G prf seed := by
  refine ⟨rfl, rfl, ?_⟩
  intro b hb
  have hb : b ∈ [prf seed] := hb
  rw [List.mem_singleton] at hb
  rw [hb]
  rfl

theorem hmac8_length {H : Bytes → Bytes} (hH : ∀ m, (H m).length = 64) {junk : Nat → UInt8} {tag gt d : Bytes} (ht : tag.length = 16)
    (h : Mac.hmac H junk 16 (some tag) (some gt) false 8 = .ok d) : d.length = 8 := by
  rw [hmac_eq hH junk 16 tag gt ht (by decide) 8 (by decide)] at h
  injection h with h
  have : (HMAC H tag gt).length = 64 := hH _
  rw [← h, List.length_take, this]
  rfl

omit [AddCommGroup G1] [AddCommGroup G2] [AddCommGroup GT] in
/-- The mask: the result is the one of the model of C49; the group element and the mask are not erased. -/
theorem mask_exact (hH : ∀ m, (G.H m).length = 64) (tag gt : Bytes) (ht : tag.length = 16) :
    ∃ d, (mask G tag gt).res = Ppke.mask G tag gt ∧ Ppke.mask G tag gt = .ok (leNat d) ∧ gt ∈ (mask G tag gt).left ∧ d ∈ (mask G tag gt).left := by
  have hh := hmac_eq hH G.junk 16 tag gt ht (by decide) 8 (by decide)
  obtain ⟨h1, h2⟩ := hmac_exact G.H G.junk 16 tag gt 8 (by decide)
  have h3 := h2 _ hh
  have hl := hmac8_length hH ht hh
  rw [hh] at h1
  have e0 : putAt (rawBuf G.junk 8) 0 ((HMAC G.H tag gt).take 8) = .ok ((HMAC G.H tag gt).take 8) := putAt_all (by rw [hl, rawBuf_length])
  refine ⟨(HMAC G.H tag gt).take 8, ?_, ?_, ?_, ?_⟩
  · unfold mask Ppke.mask
    rw [hh]
    simp only [Z.run, Z.get_bind, Z.call_bind, h1, Z.upd_bind, e0, Res.map_ok, Z.pure_run]
  · unfold Ppke.mask
    rw [hh]
    rfl
  · unfold mask
    simp only [Z.run, Z.get_bind, Z.call_bind, h1, Z.upd_bind, e0, Res.map_ok, Z.pure_run]
    simp
  · unfold mask
    simp only [Z.run, Z.get_bind, Z.call_bind, h1, Z.upd_bind, e0, Res.map_ok, Z.pure_run]
    simp

omit [AddCommGroup G2] in
/-- Encryption, with the secret parameters or with the public key: the results are those of the model of C49.  The mask is not erased, and with it the plaintext
follows from the ciphertext. -/
theorem c109_encrypt_false (hH : ∀ m, (G.H m).length = 64) (sp : Ppke.Params) (pk : Ppke.Public G1 G2) (x m : Nat) (tag : Bytes) (ht : tag.length = 16) :
    ((encryptSp G sp x m tag).res = Ppke.encryptSp G sp x m tag ∧
      ∀ ct, Ppke.encryptSp G sp x m tag = .ok ct → ∃ d ∈ (encryptSp G sp x m tag).left, leNat d ^^^ ct.ct1 = m) ∧
    ((encryptPk G pk x m tag).res = Ppke.encryptPk G pk x m tag ∧
      ∀ ct, Ppke.encryptPk G pk x m tag = .ok ct → ∃ d ∈ (encryptPk G pk x m tag).left, leNat d ^^^ ct.ct1 = m) := by
  constructor
  · unfold encryptSp Ppke.encryptSp
    simp only [Z.run, Z.lift_bind]
    cases hb : Ppke.blindSp G sp (Ppke.randomZR G x) tag with
    | ub => exact ⟨rfl, nofun⟩
    | exc e => exact ⟨rfl, nofun⟩
    | ok b =>
      obtain ⟨d, h1, h2, -, h3⟩ := mask_exact G hH tag (Ppke.gtArray G (Ppke.powGT G.gT (Ppke.zmul G (Ppke.zmul G sp.alpha sp.beta) (Ppke.randomZR G x)))) ht
      simp only [Z.call_bind, h1, h2, Res.bind_ok, Z.pure_run, List.append_nil]
      refine ⟨rfl, ?_⟩
      intro ct hct
      injection hct with hct
      exact ⟨d, h3, by rw [← hct, ← Nat.xor_assoc, Nat.xor_self, Nat.zero_xor]⟩
  · unfold encryptPk Ppke.encryptPk
    simp only [Z.run, Z.lift_bind]
    cases hb : Ppke.blindPk G pk (Ppke.randomZR G x) tag with
    | ub => exact ⟨rfl, nofun⟩
    | exc e => exact ⟨rfl, nofun⟩
    | ok b =>
      obtain ⟨d, h1, h2, -, h3⟩ := mask_exact G hH tag (Ppke.gtArray G (Ppke.powGT (G.pair pk.g2G1 pk.ppkeg1) (Ppke.randomZR G x))) ht
      simp only [Z.call_bind, h1, h2, Res.bind_ok, Z.pure_run, List.append_nil]
      refine ⟨rfl, ?_⟩
      intro ct hct
      injection hct with hct
      exact ⟨d, h3, by rw [← hct, ← Nat.xor_assoc, Nat.xor_self, Nat.zero_xor]⟩

omit [AddCommGroup G2] in
/-- Decryption: the result is the one of the model of C49, and the mask is not erased. -/
theorem c109_decrypt_false (hH : ∀ m, (G.H m).length = 64) (sk : List (Ppke.Share G2)) (ct : Ppke.Ct G1) (ht : ct.tag.length = 16) :
    (decryptUnchecked G sk ct).res = Ppke.decryptUnchecked G sk ct ∧
      ∀ m, Ppke.decryptUnchecked G sk ct = .ok m → ∃ d ∈ (decryptUnchecked G sk ct).left, leNat d ^^^ ct.ct1 = m := by
  unfold decryptUnchecked Ppke.decryptUnchecked
  simp only [Z.run, Z.lift_bind]
  cases hb : Ppke.recoverBlind G sk ct with
  | ub => exact ⟨rfl, nofun⟩
  | exc e => exact ⟨rfl, nofun⟩
  | ok z =>
    obtain ⟨d, h1, h2, -, h3⟩ := mask_exact G hH ct.tag (G.encT z) ht
    simp only [Z.call_bind, h1, h2, Res.bind_ok, Z.pure_run, List.append_nil]
    refine ⟨rfl, ?_⟩
    intro m hm
    injection hm with hm
    exact ⟨d, h3, hm⟩

/-- The plaintext 42 follows from the ciphertext and what `encrypt` left. -/
example : ∃ c, Ppke.encryptSp Ppke.toy (Ppke.paramgen Ppke.toy Ppke.exPrf) 12345 42 Ppke.tagC = .ok c ∧
    ∃ d ∈ (encryptSp Ppke.toy (Ppke.paramgen Ppke.toy Ppke.exPrf) 12345 42 Ppke.tagC).left, leNat d ^^^ c.ct1 = 42 := by
  obtain ⟨c, hc, -⟩ := Ppke.encryptSp_eq Ppke.toy_ok (Ppke.paramgen Ppke.toy Ppke.exPrf) 12345 42 (tag := Ppke.tagC) rfl (by decide)
    (e := 12345 * (Ppke.paramgen Ppke.toy Ppke.exPrf).beta * (Ppke.paramgen Ppke.toy Ppke.exPrf).alpha) (by push_cast; rfl)
  exact ⟨c, hc, (c109_encrypt_false Ppke.toy toyH_length _ (Ppke.publicKey Ppke.toy (Ppke.paramgen Ppke.toy Ppke.exPrf)) 12345 42 Ppke.tagC rfl).1.2 c hc⟩

end Ppke

/-! ## The tree of keys -/

/-- A leaf element made by `constrain`: its value is the one derived from the parent, and a copy of it stays on the stack. -/
theorem c109_leaf_false (B : Bytes → Nat → Nat → UInt8) (junk : Nat → UInt8) (key : Option Bytes) (nb subtreeMin leaf : Nat) :
    (leafFromParent B junk key nb subtreeMin leaf).res = Prg.derive B key ((if leaf = subtreeMin then 0 else 1) * nb) nb false ∧
      ∀ d, (leafFromParent B junk key nb subtreeMin leaf).res = .ok d → d ∈ (leafFromParent B junk key nb subtreeMin leaf).left := by
  obtain ⟨e1, -⟩ := derive_exact B junk key ((if leaf = subtreeMin then 0 else 1) * nb) nb false
  unfold leafFromParent
  simp only [Z.run, Z.call_bind]
  generalize hx : (if leaf = subtreeMin then 0 else 1) * nb = off at *
  cases hd : Prg.derive B key off nb false with
  | ub => rw [hd] at e1; simp only [e1]; exact ⟨trivial, nofun⟩
  | exc e => rw [hd] at e1; simp only [e1]; exact ⟨trivial, nofun⟩
  | ok d =>
    rw [hd] at e1
    have e0 : putAt (rawBuf junk nb) 0 d = .ok d := putAt_all (by rw [derive_length B hd, rawBuf_length])
    simp only [e1, Z.upd_bind, e0, Z.get]
    refine ⟨trivial, ?_⟩
    intro x hx
    injection hx with hx
    simp [hx]

example : (leafFromParent exBlock (fun _ => 5) (some [9]) 3 6 7).res = .ok [13, 14, 15] ∧
    (leafFromParent exBlock (fun _ => 5) (some [9]) 3 6 7).left = [List.replicate 64 0, [13, 14, 15]] := by decide +kernel

end Verif.Scrub
