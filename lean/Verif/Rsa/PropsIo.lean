import Verif.Rsa.PropsPool
import Verif.Rsa.Text

/-!
# C72: keys in texts, down to the limbs

`Io.Spec` says what the texts are (RFC 8017, X.690, RFC 4648, RFC 7468).
-/

namespace Verif.Rsa

open Verif Verif.Bignum Verif.Tdp Verif.Io

/-! ## Import -/

/-- **C72**: the constructor from a string of up to 34999 bytes, run on the limbs, accepts exactly the strings that `Verif.Io` accepts, with the same
numbers, and throws `runtime_error` for all others; the object that it makes is in shape. -/
theorem c72_import_private {sk : Bytes} (hl : sk.length ≤ 34999) :
    (importPrivateL sk = .exc .runtimeError ∧ importPrivate sk = .exc .runtimeError) ∨
    ∃ v, importPrivateL sk = .ok v ∧ importPrivate sk = .ok (abs v.ctx) ∧ GoodInv v ∧ Trim v.ctx ∧ Tdp.checkPriv (abs v.ctx) = true := by
  rcases importPrivate_both hl with ⟨h1, h2⟩ | ⟨v, k, h1, h2, h3, rfl, h4, h5⟩
  · exact .inl ⟨h1, h2⟩
  · exact .inr ⟨v, h1, h2, h3, h4, h5⟩

/-- **C72**: the same for public keys. -/
theorem c72_import_public {pk : Bytes} (hl : pk.length ≤ 34999) :
    (importPublicL pk = .exc .runtimeError ∧ importPublic pk = .exc .runtimeError) ∨
    ∃ c, importPublicL pk = .ok c ∧ importPublic pk = .ok (abs c) ∧ PoolKey c := by
  rcases importPublic_both hl with ⟨h1, h2⟩ | ⟨c, k, h1, h2, h3, rfl⟩
  · exact .inl ⟨h1, h2⟩
  · exact .inr ⟨c, h1, h2, h3⟩

/-! ## Export -/

theorem abs_priv {c : Ctx} (hp : ¬ (c.P.p = [] ∨ c.Q.p = [] ∨ c.D.p = [])) :
    (abs c).priv = some { D := c.D.mag, P := c.P.mag, Q := c.Q.mag, DP := c.DP.mag, DQ := c.DQ.mag, QP := c.QP.mag } := by
  unfold abs
  simp only
  rw [if_neg hp]

theorem big_D {c : Ctx} (h : Good c) : c.D.mag < 256 ^ 80000 := by
  have h1 := (limbs_le_iff _ _).1 (limbs_U h.D)
  refine lt_of_lt_of_le h1 ?_
  rw [show (W64 : Nat) ^ 5000 = 256 ^ (8 * 5000) by rw [pow_mul]; exact congrArg (· ^ 5000) (show W64 = 256 ^ 8 by norm_num)]
  exact Nat.pow_le_pow_right (by omega) (by omega)

/-- **C72**: `private_key()` of an object with a key that passes the checks gives the text of its numbers, or throws if it does not fit the buffer of 5000 bytes. -/
theorem c72_export_private {v : Inv} (h : GoodInv v) {s : Priv} (hs : (abs v.ctx).priv = some s) (hc : Tdp.checkPriv (abs v.ctx) = true) :
    privateKeyL v.ctx = if pemNeed (Spec.rsaPrivateKey (abs v.ctx).N (abs v.ctx).E s).length 62 ≤ 5000 then .ok (privText (abs v.ctx).N (abs v.ctx).E s)
      else .exc .runtimeError := by
  rw [privateKey_same (h.ctx.privNums h.priv)]
  refine c42_export_private hs hc ?_
  rw [abs_priv h.priv] at hs
  cases hs
  exact big_D h.ctx

/-- **C72**: `public_key()` of an object with a key that passes the check of public keys gives the text of modulus and exponent. -/
theorem c72_export_public {c : Ctx} (h : Good c) (hc : Tdp.checkPub (abs c) = true) : publicKeyL c = .ok (pubText (abs c).N (abs c).E) := by
  rw [publicKey_same ⟨⟨h.N.wf, h.N.pos⟩, ⟨h.E.wf, h.E.pos⟩⟩]
  exact (c42_public hc).1

/-! ## Export and import -/

theorem pem_length (header footer der : Bytes) :
    (Spec.pem header footer der).length = header.length + footer.length + 2 + 4 * ((der.length + 2) / 3) + (4 * ((der.length + 2) / 3) + 63) / 64 := by
  unfold Spec.pem
  simp only [List.length_append, List.length_cons, List.length_nil, wrap_length, c44_length]
  omega

theorem privText_length {N E : Nat} {s : Priv} (h : pemNeed (Spec.rsaPrivateKey N E s).length 62 ≤ 5000) : (privText N E s).length ≤ 34999 := by
  obtain ⟨m1, m2, -, -⟩ := markLengths
  unfold privText
  rw [pem_length]
  unfold pemNeed at h
  omega

/-- **C72**: what `private_key()` returned is accepted by the constructor, and the new object has the same numbers. -/
theorem c72_reload {v : Inv} (h : GoodInv v) (hc : Tdp.checkPriv (abs v.ctx) = true) (hlen : v.ctx.len = mpiSize v.ctx.N.mag) {text : Bytes}
    (ht : privateKeyL v.ctx = .ok text) :
    ∃ w, importPrivateL text = .ok w ∧ GoodInv w ∧ Trim w.ctx ∧ abs w.ctx = { abs v.ctx with blind := none } := by
  have hs := abs_priv h.priv
  have he := c72_export_private h hs hc
  rw [ht] at he
  split at he
  swap
  · cases he
  rename_i hfit
  have hlen' : text.length ≤ 34999 := by
    cases he
    exact privText_length hfit
  rw [privateKey_same (h.ctx.privNums h.priv)] at ht
  have h1 := c42_private hs hc hlen (big_D h.ctx) ht
  rcases c72_import_private hlen' with ⟨_, h2⟩ | ⟨w, w1, w2, w3, w4, _⟩
  · rw [h1] at h2; cases h2
  · rw [h1] at w2
    exact ⟨w, w1, w3, w4, (Res.ok.inj w2).symm⟩

/-- **C72**: the text of the public key of an object is accepted by the constructor of public keys, and the new object has the same modulus and exponent. -/
theorem c72_reload_public {c : Ctx} (h : Good c) (hc : Tdp.checkPub (abs c) = true) :
    ∃ text d, publicKeyL c = .ok text ∧ importPublicL text = .ok d ∧ PoolKey d ∧
      abs d = { len := mpiSize (abs c).N, N := (abs c).N, E := (abs c).E, priv := none, blind := none } := by
  have h0 := c72_export_public h hc
  have h1 := (c42_public hc).2
  have hlen : (pubText (abs c).N (abs c).E).length ≤ 34999 := by
    obtain ⟨-, -, m1, m2⟩ := markLengths
    have := spki_length hc
    unfold pubText
    rw [pem_length]
    unfold pubDerMax at this
    omega
  rcases c72_import_public hlen with ⟨_, h2⟩ | ⟨d, d1, d2, d3⟩
  · rw [h1] at h2; cases h2
  · rw [h1] at d2
    exact ⟨_, d, h0, d1, d3, (Res.ok.inj d2).symm⟩

/-! ## Histories with export and import -/

/-- Operations on an object with a private key; after `reload` the next ones are done with a new object, made from the exported text. -/
inductive KOp
  | op (o : Op)
  | reload
  | publicKey

def KOp.Ok : KOp → Prop
  | .op o => o.Ok
  | _ => True

/-- The results of a sequence of operations, which stops when a reload fails. -/
def keyTrace (g : Rng) : Inv → Nat → List KOp → List (KOp × Res Bytes)
  | _, _, [] => []
  | v, i, .op o :: ops =>
    let r := step g v i o
    (.op o, r.1) :: keyTrace g r.2.1 r.2.2 ops
  | v, i, .publicKey :: ops => (.publicKey, publicKeyL v.ctx) :: keyTrace g v i ops
  | v, i, .reload :: ops =>
    match privateKeyL v.ctx with
    | .ok text =>
      match importPrivateL text with
      | .ok w => (.reload, .ok text) :: keyTrace g w i ops
      | .exc e => [(.reload, .exc e)]
      | .ub => [(.reload, .ub)]
    | .exc e => [(.reload, .exc e)]
    | .ub => [(.reload, .ub)]

/-- What the operations are to give. -/
def KeySpec (N E : Nat) (s : Priv) : KOp → Res Bytes → Prop
  | .op o, r => Spec N E o r
  | .publicKey, r => r = .ok (pubText N E)
  | .reload, r => r = .ok (privText N E s)

theorem check_of_parts {k l : Tdp.Rsa} (h1 : k.N = l.N) (h2 : k.E = l.E) (h3 : k.priv = l.priv) : Tdp.checkPriv k = Tdp.checkPriv l := by
  unfold Tdp.checkPriv Tdp.checkPub
  rw [h1, h2, h3]

theorem size_256 {n : Nat} (h : 256 ^ 255 ≤ n) (h2 : n < 256 ^ 256) : mpiSize n = 256 := by
  have h3 := (Tdp.mpiSize_le_iff n 256).2 h2
  have h4 : ¬ mpiSize n ≤ 255 := fun hh => absurd ((Tdp.mpiSize_le_iff n 255).1 hh) (not_lt.2 h)
  omega

/-- **C72**: in every sequence of evaluations, inversions, samples, exports of the public key and reloads of the private key, each operation gives what it is to
give: the texts stay the same, every reload succeeds, and the reloaded object computes the same function and its inverse. -/
theorem c72_history {g : Rng} (hg : Total g) {v : Inv} {s : Priv} (h : Ready v s) (hk : Tdp.checkPriv (abs v.ctx) = true) (hN : 256 ^ 255 ≤ (abs v.ctx).N)
    (hD : s.D < 256 ^ 256) (hc : ∀ i, ∃ j, j < 11 ∧ Nat.gcd (nums g (i + j) 255) (abs v.ctx).N = 1) (ops : List KOp) (hops : ∀ op ∈ ops, op.Ok) (i : Nat) :
    (keyTrace g v i ops).length = ops.length ∧ ∀ r ∈ keyTrace g v i ops, KeySpec (abs v.ctx).N (abs v.ctx).E s r.1 r.2 := by
  induction ops generalizing v i with
  | nil => exact ⟨rfl, fun r hr => by simp [keyTrace] at hr⟩
  | cons op ops ih =>
    have hrest : ∀ o ∈ ops, o.Ok := fun o ho => hops o (by simp [ho])
    have hop := hops op (by simp)
    cases op with
    | op o =>
      obtain ⟨s1, s2, s3, s4⟩ := step_run hg h hc hop i
      have hk' : Tdp.checkPriv (abs (step g v i o).2.1.ctx) = true := by
        rw [check_of_parts s3 s4 (s2.key.priv.trans h.key.priv.symm)]; exact hk
      have ih' := ih s2 hk' (by rw [s3]; exact hN) (by rw [s3]; exact hc) hrest (step g v i o).2.2
      rw [s3, s4] at ih'
      refine ⟨by rw [keyTrace]; exact congrArg Nat.succ ih'.1, fun r hr => ?_⟩
      rw [keyTrace] at hr
      rcases List.mem_cons.1 hr with rfl | hr
      · exact s1
      · exact ih'.2 r hr
    | publicKey =>
      have ih' := ih h hk hN hc hrest i
      refine ⟨by rw [keyTrace]; exact congrArg Nat.succ ih'.1, fun r hr => ?_⟩
      rw [keyTrace] at hr
      rcases List.mem_cons.1 hr with rfl | hr
      · exact c72_export_public h.good.ctx (checkPriv_pub hk)
      · exact ih'.2 r hr
    | reload =>
      have hlen : (abs v.ctx).len = mpiSize (abs v.ctx).N := by
        rw [h.key.len, size_256 hN h.key.size]
      have ht : privateKeyL v.ctx = .ok (privText (abs v.ctx).N (abs v.ctx).E s) := by
        obtain ⟨text, t1, _⟩ := c42_private_2048 h.key.priv hk hlen h.key.size hD
        have he := c72_export_private h.good h.key.priv hk
        rw [privateKey_same (h.good.ctx.privNums h.good.priv), t1] at he
        rw [privateKey_same (h.good.ctx.privNums h.good.priv), t1]
        split at he
        · exact he
        · cases he
      obtain ⟨w, w1, w2, _, w4⟩ := c72_reload h.good hk hlen ht
      have hw : Ready w s := by
        refine ⟨w2, ?_, ?_⟩
        · rw [w4]
          exact ⟨h.key.priv, h.key.key, h.key.len, h.key.size⟩
        · rw [w4]
          intro vi vf hh
          cases hh
      have ih' := ih hw (by rw [w4]; exact hk) (by rw [w4]; exact hN) (by rw [w4]; exact hc) hrest i
      rw [w4] at ih'
      have e : keyTrace g v i (.reload :: ops) = (.reload, .ok (privText (abs v.ctx).N (abs v.ctx).E s)) :: keyTrace g w i ops := by
        rw [keyTrace, ht]
        simp only
        rw [w1]
      rw [e]
      refine ⟨congrArg Nat.succ ih'.1, fun r hr => ?_⟩
      rcases List.mem_cons.1 hr with rfl | hr
      · rfl
      · exact ih'.2 r hr

/-- **C72**: from a text to working objects: if the text of a private key is accepted, its factors are primes and the modulus has 256 bytes, then the object
made from it does what C66 says; whatever is done with it, it can be exported and imported again if the private exponent is not longer than the modulus. -/
theorem c72_from_text {sk : Bytes} (hl : sk.length ≤ 34999) {v : Inv} (h : importPrivateL sk = .ok v) (hp : v.ctx.P.mag.Prime) (hq : v.ctx.Q.mag.Prime)
    (hlen : 256 ^ 255 ≤ v.ctx.N.mag) (hlen2 : v.ctx.N.mag < 256 ^ 256) :
    ∃ s, Ready v s ∧ Tdp.checkPriv (abs v.ctx) = true ∧ s.D = v.ctx.D.mag ∧ importPrivate sk = .ok (abs v.ctx) := by
  rcases c72_import_private hl with ⟨h1, _⟩ | ⟨w, w1, w2, w3, w4, w5⟩
  · rw [h] at h1; cases h1
  rw [h] at w1
  cases w1
  have hs := abs_priv w3.priv
  have hk := c37_imported hs w5 hp hq
  have hsafe : (abs v.ctx).len = mpiSize (abs v.ctx).N ∧ (abs v.ctx).blind = none := by
    rcases c42_import_private_safe sk (by omega) with h1 | ⟨k, k1, _, k3, k4⟩
    · rw [h1] at w2; cases w2
    · rw [k1] at w2
      cases w2
      exact ⟨k3, k4⟩
  have e1 : (abs v.ctx).N = v.ctx.N.mag := rfl
  have hz : mpiSize (abs v.ctx).N = 256 := size_256 hlen hlen2
  refine ⟨_, ⟨w3, ⟨hs, hk, by rw [hsafe.1, hz], by rw [e1]; exact hlen2⟩, ?_⟩, w5, rfl, w2⟩
  intro vi vf hh
  rw [hsafe.2] at hh
  cases hh

theorem public_len {pk : Bytes} (hl : pk.length ≤ 34999) {c : Ctx} (h : importPublicL pk = .ok c) (hlen : 256 ^ 255 ≤ c.N.mag) (hlen2 : c.N.mag < 256 ^ 256) :
    PoolKey c ∧ (abs c).len = 256 := by
  rcases c72_import_public hl with ⟨h1, _⟩ | ⟨d, d1, d2, d3⟩
  · rw [h] at h1; cases h1
  rw [h] at d1
  cases d1
  refine ⟨d3, ?_⟩
  rcases c42_import_public_safe pk (by omega) with h1 | ⟨k, k1, _, k3, k4⟩
  · rw [h1] at d2; cases d2
  · rw [k1] at d2
    cases d2
    rw [k3]
    exact size_256 hlen hlen2

/-- **C72**: an object made from the text of a public key does what C69 says. -/
theorem c72_public {pk : Bytes} (hl : pk.length ≤ 34999) {c : Ctx} (h : importPublicL pk = .ok c) (hlen : 256 ^ 255 ≤ c.N.mag) (hlen2 : c.N.mag < 256 ^ 256)
    {g : Rng} (hg : Total g) (ops : List UOp) (hops : ∀ op ∈ ops, op.Ok) (i : Nat) :
    ∀ r ∈ pubTrace g c i ops, PubSpec c.N.mag c.E.mag r.1 r.2 :=
  have h1 := public_len hl h hlen hlen2
  c69_public hg h1.1 h1.2 hlen2 ops hops i

/-- **C72**: a pool made from the text of a public key does what C68 says. -/
theorem c72_pool {pk : Bytes} (hl : pk.length ≤ 34999) {c : Ctx} (h : importPublicL pk = .ok c) (hlen : 256 ^ 255 ≤ c.N.mag) (hlen2 : c.N.mag < 256 ^ 256) {size : Nat}
    (hsz : size < 256) {p : Pool} (hp : mkPool c size = .ok p) (ops : List POp) (hops : ∀ op ∈ ops, op.Ok) :
    ∀ r ∈ poolTrace p ops, PoolSpec c.N.mag c.E.mag size r.1 r.2 := by
  obtain ⟨d3, hz⟩ := public_len hl h hlen hlen2
  have hm := mkPool_run d3 size
  rcases hq : Tdp.mkPool (abs c) size with q | x | _ <;> rw [hq] at hm
  · obtain ⟨p', m1, m2, m3⟩ := hm
    rw [hp] at m1
    cases m1
    exact poolTrace_run (k := abs c) hz hlen2 (checkPub_true d3.pub).2 hsz hq m3 m2 ops hops
  · simp only at hm
    rw [hp] at hm; cases hm
  · simp only at hm
    rw [hp] at hm; cases hm

/-- **C72**: a generated key whose factors are primes can be exported and imported, and the new object has the same numbers. -/
theorem c72_generated {g : Rng} (hg : g.Ok) {f fuel : Nat} (hf : f ≤ 2 ^ 1028) {c : Ctx} {i j : Nat}
    (h : rsaGenKey g f fuel 2048 65537 .init i = (.ok true, c, j)) (hp : c.P.mag.Prime) (hq : c.Q.mag.Prime) :
    ∃ v text w, mkInv c = .ok v ∧ privateKeyL v.ctx = .ok text ∧ importPrivateL text = .ok w ∧ GoodInv w ∧ abs w.ctx = abs c := by
  have hm : Made g 2048 65537 c := by
    rcases c67_outcomes (fuel := fuel) (nbits := 2048) (e := 65537) hg (by decide) hf (by decide) i with ⟨c', j', h1, h2⟩ | ⟨c', j', h1⟩ | ⟨er, j', h1, _⟩
    · have := h.symm.trans h1
      cases this
      exact h2
    · cases h.symm.trans h1
    · cases h.symm.trans h1
  obtain ⟨h1, text, t1, t2⟩ := c42_generated (prime := fun k => if k = 0 then c.P.mag else c.Q.mag)
      (by intro k; split <;> assumption)
      (by intro k; split; exacts [hm.accP.odd, hm.accQ.odd]) hm.gen
  have hv := mkInv_run hm.good hm.parts
  rw [if_pos (checkPriv_pub h1)] at hv
  obtain ⟨v, v1, v2, v3⟩ := hv
  have hlen : v.ctx.len = mpiSize v.ctx.N.mag := by
    rcases c42_import_private_safe text (by
      have he := c72_export_private v3 (abs_priv v3.priv) (by rw [v2]; exact h1)
      rw [privateKey_same (v3.ctx.privNums v3.priv), v2, t1] at he
      split at he
      · have := privText_length ‹_›
        cases he
        omega
      · cases he) with h2 | ⟨k, k1, _, k3, _⟩
    · rw [t2] at h2; cases h2
    · rw [t2] at k1
      cases k1
      rw [v2]
      exact k3
  have ht : privateKeyL v.ctx = .ok text := by
    rw [privateKey_same (v3.ctx.privNums v3.priv), v2]; exact t1
  obtain ⟨w, w1, w2, _, w4⟩ := c72_reload v3 (by rw [v2]; exact h1) hlen ht
  refine ⟨v, text, w, v1, ht, w1, w2, ?_⟩
  have h3 := c42_private (abs_priv v3.priv) (by rw [v2]; exact h1) hlen (big_D v3.ctx) (text := text) (by rw [v2]; exact t1)
  rw [w4, ← Res.ok.inj (h3.symm.trans t2)]

/-- **C72**: not every accepted key can be exported again: for some text the constructor succeeds and `private_key()` then throws. -/
theorem c72_export_false : ∃ text v, importPrivateL text = .ok v ∧ privateKeyL v.ctx = .exc .runtimeError := by
  have hs : bigKey.priv = some bigPriv := rfl
  have hc : Tdp.checkPriv bigKey = true := by decide +kernel
  have hl : bigKey.len = mpiSize bigKey.N := by decide +kernel
  have hD : bigPriv.D < 256 ^ 80000 := by decide +kernel
  have hi := (c42_import_private hs hc hl hD).1
  have hlen : (privText bigKey.N bigKey.E bigPriv).length ≤ 34999 := by
    obtain ⟨m1, m2, -, -⟩ := markLengths
    have hb : (Spec.rsaPrivateKey bigKey.N bigKey.E bigPriv).length ≤ 20000 := by decide +kernel
    unfold privText
    rw [pem_length]
    omega
  rcases c72_import_private hlen with ⟨_, h2⟩ | ⟨v, v1, v2, v3, _, _⟩
  · rw [hi] at h2; cases h2
  · refine ⟨_, v, v1, ?_⟩
    rw [hi] at v2
    rw [privateKey_same (v3.ctx.privNums v3.priv), ← Res.ok.inj v2]
    rw [c42_export_private (k := { bigKey with blind := none }) (s := bigPriv) rfl (by decide +kernel) hD]
    exact if_neg (by decide +kernel)

/-! ## Examples -/

/-- The text of the example key. -/
def exText : Bytes := privText exKey.N exKey.E exPriv

theorem exText_length : exText.length ≤ 34999 := privText_length (by decide +kernel)

theorem exImport : ∃ v, importPrivateL exText = .ok v ∧ Ready v exPriv ∧ abs v.ctx = exKey := by
  have hi := (c42_import_private (k := exKey) (s := exPriv) rfl Io.exKey_check (by decide +kernel) (by decide +kernel)).1
  rcases c72_import_private exText_length with ⟨_, h2⟩ | ⟨v, v1, v2, v3, _, _⟩
  · rw [exText, hi] at h2; cases h2
  · rw [exText, hi] at v2
    have e : abs v.ctx = exKey := (Res.ok.inj v2).symm
    exact ⟨v, v1, ⟨v3, by rw [e]; exact exKey_tdp, by rw [e]; exact exBlind⟩, e⟩

/-- The text of the example key gives an object that evaluates, is reloaded, and inverts. -/
example : ∃ v, importPrivateL exText = .ok v ∧
    ∀ r ∈ keyTrace (constRng 2) v 0 [.op (.eval exMsg), .publicKey, .reload, .op (.invert exMsg), .reload], KeySpec exKey.N 65537 exPriv r.1 r.2 := by
  obtain ⟨v, v1, v2, v3⟩ := exImport
  refine ⟨v, v1, ?_⟩
  have := (c72_history (total_const 2) v2 (by rw [v3]; exact Io.exKey_check) (by rw [v3]; decide +kernel) (by decide +kernel) (by rw [v3]; exact exCoprime)
    [.op (.eval exMsg), .publicKey, .reload, .op (.invert exMsg), .reload] (by
      intro op hop
      simp only [List.mem_cons, List.not_mem_nil, or_false] at hop
      rcases hop with rfl | rfl | rfl | rfl | rfl
      · exact exMsg_msg.1
      · trivial
      · trivial
      · exact exMsg_msg.1
      · trivial) 0).2
  rw [v3] at this
  exact this

example : ∃ v text w, importPrivateL exText = .ok v ∧ privateKeyL v.ctx = .ok text ∧ importPrivateL text = .ok w := by
  obtain ⟨v, v1, v2, v3⟩ := exImport
  have h := c72_export_private v2.good v2.key.priv (by rw [v3]; exact Io.exKey_check)
  rw [v3, if_pos (by decide +kernel)] at h
  obtain ⟨w, w1, _⟩ := c72_reload v2.good (by rw [v3]; exact Io.exKey_check) (by
    have e1 : v.ctx.len = (abs v.ctx).len := rfl
    have e2 : v.ctx.N.mag = (abs v.ctx).N := rfl
    rw [e1, e2, v3]; decide +kernel) h
  exact ⟨v, _, w, v1, h, w1⟩

example : ∃ v text d, importPrivateL exText = .ok v ∧ publicKeyL v.ctx = .ok text ∧ importPublicL text = .ok d ∧ (abs d).N = exKey.N := by
  obtain ⟨v, v1, v2, v3⟩ := exImport
  obtain ⟨text, d, d1, d2, _, d4⟩ := c72_reload_public v2.good.ctx (by rw [v3]; exact checkPriv_pub Io.exKey_check)
  exact ⟨v, text, d, v1, d1, d2, by rw [d4, v3]⟩

example : ∃ v s, importPrivateL exText = .ok v ∧ Ready v s := by
  obtain ⟨v, v1, v2, v3⟩ := exImport
  have hs := v2.key.priv
  rw [abs_priv v2.good.priv, Option.some.injEq] at hs
  have hN : v.ctx.N.mag = exKey.N := congrArg Rsa.N v3
  obtain ⟨s, s1, _⟩ := c72_from_text exText_length v1 (by rw [show v.ctx.P.mag = exPriv.P from congrArg Priv.P hs]; exact exP_prime)
    (by rw [show v.ctx.Q.mag = exPriv.Q from congrArg Priv.Q hs]; exact exQ_prime) (by rw [hN]; decide +kernel) (by rw [hN]; decide +kernel)
  exact ⟨v, s, v1, s1⟩

/-- A text that is not a key is refused. -/
example : importPrivateL [0x30, 0x03, 0x02, 0x01, 0x00] = .exc .runtimeError ∧ importPublicL [] = .exc .runtimeError := by
  constructor
  · rcases c72_import_private (sk := [0x30, 0x03, 0x02, 0x01, 0x00]) (by decide) with ⟨h, _⟩ | ⟨v, _, h, _⟩
    · exact h
    · have h2 : (match importPrivate [0x30, 0x03, 0x02, 0x01, 0x00] with | .ok _ => true | _ => false) = false := by decide +kernel
      rw [h] at h2; cases h2
  · rcases c72_import_public (pk := []) (by decide) with ⟨h, _⟩ | ⟨v, _, h, _⟩
    · exact h
    · have h2 : (match importPublic [] with | .ok _ => true | _ => false) = false := by decide +kernel
      rw [h] at h2; cases h2

/-- A generated key is exported and imported. -/
example : ∃ c v text w, rsaGenKey genRng 1 1 2048 65537 .init 0 = (.ok true, c, 14) ∧ mkInv c = .ok v ∧ privateKeyL v.ctx = .ok text ∧ importPrivateL text = .ok w := by
  obtain ⟨c, c1, _, c3, c4⟩ := exGen
  obtain ⟨v, text, w, h1, h2, h3, _⟩ := c72_generated genRng_ok (Nat.one_le_two_pow) c1 c3 c4
  exact ⟨c, v, text, w, c1, h1, h2, h3⟩

/-- The text of the public key of the example key makes a pool and an object. -/
example : ∃ text c p, importPublicL text = .ok c ∧ mkPool c 100 = .ok p ∧ (∀ r ∈ poolTrace p [.eval exMsg 77, .copy, .eval exMsg 101], PoolSpec exKey.N 65537 100 r.1 r.2) ∧
    ∀ r ∈ pubTrace (constRng 2) c 0 [.eval exMsg, .copy, .eval exMsg], PubSpec exKey.N 65537 r.1 r.2 := by
  obtain ⟨v, v1, v2, v3⟩ := exImport
  obtain ⟨text, d, d1, d2, d3, d4⟩ := c72_reload_public v2.good.ctx (by rw [v3]; exact checkPriv_pub Io.exKey_check)
  rw [v3] at d4
  have hN : d.N.mag = exKey.N := congrArg Rsa.N d4
  have hE : d.E.mag = 65537 := congrArg Rsa.E d4
  have hl : text.length ≤ 34999 := by
    have h0 := c72_export_public v2.good.ctx (by rw [v3]; exact checkPriv_pub Io.exKey_check)
    rw [d1] at h0
    cases h0
    obtain ⟨-, -, m1, m2⟩ := markLengths
    have := spki_length (k := abs v.ctx) (by rw [v3]; exact checkPriv_pub Io.exKey_check)
    unfold pubText
    rw [pem_length]
    unfold pubDerMax at this
    omega
  have hm := mkPool_run d3 100
  have hz := c39_sizes d3.pub (by rw [d4]; decide +kernel) (by rw [d4]; decide +kernel) (by rw [d4]; rfl) (size := 100) (by decide)
  obtain ⟨q, hq⟩ := hz.1 (by decide) (by decide)
  rw [hq] at hm
  obtain ⟨p, p1, _⟩ := hm
  have h : exMsg.length = 256 := exMsg_msg.1
  refine ⟨text, d, p, d2, p1, ?_, ?_⟩
  · rw [← hN, ← hE]
    refine c72_pool hl d2 (by rw [hN]; decide +kernel) (by rw [hN]; decide +kernel) (by decide) p1 _ ?_
    intro op hop
    simp only [List.mem_cons, List.not_mem_nil, or_false] at hop
    rcases hop with rfl | rfl | rfl
    · exact ⟨h, by decide⟩
    · trivial
    · exact ⟨h, by decide⟩
  · have := c72_public hl d2 (by rw [hN]; decide +kernel) (by rw [hN]; decide +kernel) (total_const 2) [.eval exMsg, .copy, .eval exMsg] (by
      intro op hop
      simp only [List.mem_cons, List.not_mem_nil, or_false] at hop
      rcases hop with rfl | rfl | rfl
      · exact h
      · trivial
      · exact h) 0
    rw [hN, hE] at this
    exact this

end Verif.Rsa
