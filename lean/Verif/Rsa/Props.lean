import Verif.Rsa.Read
import Verif.Rsa.First
import Verif.Tdp.PropsPool

/-!
# C66–C69: the trapdoor permutation on multi-precision integers

`abs c` are the numbers in the context `c`; `Good c` says that its integers are in shape, that none has too many limbs, and that each Montgomery
constant that is cached belongs to its modulus.
-/

namespace Verif.Rsa

open Verif Verif.Bignum Verif.Tdp

/-! ## C66: objects with a private key -/

/-- The operations of class `TdpInverseImpl_mbedTLS` on arrays. -/
inductive Op
  | eval (m : Bytes)
  | invert (m : Bytes)
  | invertMult (m : Bytes) (order : Nat)
  | sample

def Op.Ok : Op → Prop
  | .eval m => m.length = 256
  | .invert m => m.length = 256
  | .invertMult m _ => m.length = 256
  | .sample => True

/-- One operation: its result, the object after it, and the number of calls of the generator. -/
def step (g : Rng) (v : Inv) (i : Nat) : Op → Res Bytes × Inv × Nat
  | .eval m =>
    let r := evalArray v.ctx m
    (r.1, { v with ctx := r.2 }, i)
  | .invert m =>
    let r := invertBuf g v.ctx i m
    (r.1, { v with ctx := r.2.1 }, r.2.2)
  | .invertMult m order =>
    let r := invertMult v m order
    (r.1, r.2, i)
  | .sample => (sample g v.ctx i, v, i + 1)

/-- The results of a sequence of operations on one object. -/
def trace (g : Rng) : Inv → Nat → List Op → List (Op × Res Bytes)
  | _, _, [] => []
  | v, i, op :: ops =>
    let r := step g v i op
    (op, r.1) :: trace g r.2.1 r.2.2 ops

/-- What the operations are to give, for the modulus `N` and the exponent `E`. -/
def Spec (N E : Nat) : Op → Res Bytes → Prop
  | .eval m, r => ∃ y, r = .ok y ∧ y.length = 256 ∧ beNat y = beNat m ^ E % N
  | .invert m, r => if beNat m < N then ∃ x, r = .ok x ∧ x.length = 256 ∧ beNat x < N ∧ beNat x ^ E % N = beNat m else r = .exc .invalidArgument
  | .invertMult m order, r =>
    if order = 0 then r = .ok m else ∃ x, r = .ok x ∧ x.length = 256 ∧ beNat x < N ∧ beNat x ^ (E ^ order) % N = beNat m % N
  | .sample, r => ∃ x, r = .ok x ∧ x.length = 256 ∧ beNat x < N

/-- An object with a private key. -/
structure Ready (v : Inv) (s : Priv) : Prop where
  good : GoodInv v
  key : TdpKey (abs v.ctx) s
  blind : BlindOk (abs v.ctx)

theorem abs_cache (c : Ctx) (RN RP RQ : Mpi) : abs { c with RN := RN, RP := RP, RQ := RQ } = abs c := rfl

theorem step_run {g : Rng} (hg : Total g) {v : Inv} {s : Priv} (h : Ready v s) (hc : ∀ i, ∃ j, j < 11 ∧ Nat.gcd (nums g (i + j) 255) (abs v.ctx).N = 1)
    {op : Op} (hop : op.Ok) (i : Nat) :
    Spec (abs v.ctx).N (abs v.ctx).E op (step g v i op).1 ∧ Ready (step g v i op).2.1 s ∧ (abs (step g v i op).2.1.ctx).N = (abs v.ctx).N ∧
      (abs (step g v i op).2.1.ctx).E = (abs v.ctx).E := by
  cases op with
  | eval m =>
    obtain ⟨RN, r1, r2, r3⟩ := evalArray_run h.good.ctx (inp := m) hop
    obtain ⟨y, _, y2, y3, y4⟩ := c37_eval h.key (m := m) hop
    have h1 : (step g v i (.eval m)).1 = (evalArray v.ctx m).1 := rfl
    have h2 : (step g v i (.eval m)).2.1 = { v with ctx := { v.ctx with RN := RN } } := by
      show { v with ctx := (evalArray v.ctx m).2 } = _
      rw [r1]
    rw [h1, h2]
    refine ⟨⟨y, by rw [r3, y2], y3.1, y4⟩, ⟨⟨r2, h.good.p1, h.good.q1, h.good.priv⟩, h.key, h.blind⟩, rfl, rfl⟩
  | invert m =>
    obtain ⟨c', j, r1, r2, r3, r4⟩ := invertBuf_run hg h.good.ctx (show 1 ≤ v.ctx.len by have := h.key.len; change v.ctx.len = 256 at this; omega) (inp := m) hop i
    have h1 : (step g v i (.invert m)).1 = (invertBuf g v.ctx i m).1 := rfl
    have h2 : (step g v i (.invert m)).2.1 = { v with ctx := c' } := by
      show { v with ctx := (invertBuf g v.ctx i m).2.1 } = _
      rw [r1]
    have hfix : ∀ b, abs c' = { abs v.ctx with blind := b } → c'.P.mag = v.ctx.P.mag ∧ c'.Q.mag = v.ctx.Q.mag ∧ ¬ (c'.P.p = [] ∨ c'.Q.p = [] ∨ c'.D.p = []) := by
      intro b hb
      have hp := congrArg Tdp.Rsa.priv hb
      have hk : (abs v.ctx).priv = some s := h.key.priv
      have hp2 : (abs c').priv = some s := hp.trans hk
      unfold abs at hk hp2
      simp only at hk hp2
      rw [if_neg h.good.priv] at hk
      by_cases hn : c'.P.p = [] ∨ c'.Q.p = [] ∨ c'.D.p = []
      · rw [if_pos hn] at hp2; cases hp2
      · rw [if_neg hn] at hp2
        rw [Option.some.injEq] at hk hp2
        refine ⟨?_, ?_, hn⟩
        · have e1 := congrArg Priv.P (hp2.trans hk.symm)
          exact e1
        · have e1 := congrArg Priv.Q (hp2.trans hk.symm)
          exact e1
    have hready : ∀ b, abs c' = { abs v.ctx with blind := b } → BlindOk { abs v.ctx with blind := b } → Ready { v with ctx := c' } s := by
      intro b hb hbo
      obtain ⟨f1, f2, f3⟩ := hfix b hb
      refine ⟨⟨r2, ?_, ?_, f3⟩, ?_, ?_⟩
      · show V v.p1 ((c'.P.mag : Int) - 1) 301
        rw [f1]; exact h.good.p1
      · show V v.q1 ((c'.Q.mag : Int) - 1) 301
        rw [f2]; exact h.good.q1
      · show TdpKey (abs c') s
        rw [hb]; exact h.key.withBlind b
      · show BlindOk (abs c')
        rw [hb]; exact hbo
    rw [h1, h2]
    by_cases hm : beNat m < (abs v.ctx).N
    · obtain ⟨x, b, i', x1, x2, x3, x4⟩ := invertBuf_spec h.key h.blind (rng := nums g) (i := i) (by
        intro _
        have hl : (abs v.ctx).len = 256 := h.key.len
        rw [hl]
        exact hc i) (y := m) ⟨hop, hm⟩
      rw [x1] at r4
      obtain ⟨e1, e2, e3⟩ := Prod.mk.injEq _ _ _ _ |>.mp r4 |>.imp id (Prod.mk.injEq _ _ _ _).mp
      refine ⟨?_, hready _ e2.symm x4, by show (abs c').N = _; rw [← e2], by show (abs c').E = _; rw [← e2]⟩
      simp only [Spec]
      rw [if_pos hm]
      refine ⟨x, e1.symm, x2.1, x2.2, ?_⟩
      have := x3
      unfold Nat.ModEq at this
      rw [this, Nat.mod_eq_of_lt hm]
    · have hl := c37_rejects_large (nums g) h.key i (y := m) hop (by omega)
      rw [invertString_eq _ _ _ hop, r4] at hl
      obtain ⟨e1, e2, e3⟩ := Prod.mk.injEq _ _ _ _ |>.mp hl |>.imp id (Prod.mk.injEq _ _ _ _).mp
      refine ⟨?_, hready (abs v.ctx).blind (by rw [e2]) h.blind, by show (abs c').N = _; rw [e2], by show (abs c').E = _; rw [e2]⟩
      simp only [Spec]
      rw [if_neg hm]
      exact e1
  | invertMult m order =>
    obtain ⟨RP, RQ, r1, r2, r3⟩ := invertMult_run h.good (inp := m) hop order
    have h1 : (step g v i (.invertMult m order)).1 = (invertMult v m order).1 := rfl
    have h2 : (step g v i (.invertMult m order)).2.1 = { v with ctx := { v.ctx with RP := RP, RQ := RQ } } := r1
    rw [h1, h2, r3]
    refine ⟨?_, ⟨r2, h.key, h.blind⟩, rfl, rfl⟩
    simp only [Spec]
    by_cases h0 : order = 0
    · rw [if_pos h0]
      unfold Tdp.invertMult
      rw [if_pos h0]
    · rw [if_neg h0]
      obtain ⟨x, x1, x2, x3⟩ := invertMult_eq h.key m order h0
      exact ⟨x, x1, x2.1, x2.2, x3⟩
  | sample =>
    obtain ⟨m, m1, m2, _⟩ := c40_sample (nums g) h.key.key.Npos h.key.size i
    have h1 : (step g v i .sample).1 = sample g v.ctx i := rfl
    rw [h1, sample_run hg h.good.ctx i]
    exact ⟨⟨m, m1, m2.1, m2.2⟩, h, rfl, rfl⟩

/-- **C66**: after every sequence of operations on an object with a private key, whatever they left in the caches and the blinding values, every
operation gives what it is to give, and has no undefined behaviour. -/
theorem c66_history {g : Rng} (hg : Total g) {v : Inv} {s : Priv} (h : Ready v s) (hc : ∀ i, ∃ j, j < 11 ∧ Nat.gcd (nums g (i + j) 255) (abs v.ctx).N = 1)
    (ops : List Op) (hops : ∀ op ∈ ops, op.Ok) (i : Nat) : ∀ r ∈ trace g v i ops, Spec (abs v.ctx).N (abs v.ctx).E r.1 r.2 := by
  induction ops generalizing v i with
  | nil => intro r hr; simp [trace] at hr
  | cons op ops ih =>
    obtain ⟨s1, s2, s3, s4⟩ := step_run hg h hc (hops op (by simp)) i
    intro r hr
    unfold trace at hr
    rcases List.mem_cons.1 hr with rfl | hr
    · exact s1
    · have := ih s2 (by rw [s3]; exact hc) (fun o ho => hops o (by simp [ho])) _ r hr
      rwa [s3, s4] at this

/-- **C66**: `invert` undoes `eval` and the other way round, with whatever operations in between. -/
theorem c66_inverse {g : Rng} (hg : Total g) {v : Inv} {s : Priv} (h : Ready v s) (hc : ∀ i, ∃ j, j < 11 ∧ Nat.gcd (nums g (i + j) 255) (abs v.ctx).N = 1)
    (ops : List Op) (hops : ∀ op ∈ ops, op.Ok) (i : Nat) {x y : Bytes} (hx : x.length = 256) (hxN : beNat x < (abs v.ctx).N)
    (he : (Op.eval x, Res.ok y) ∈ trace g v i ops) : ∀ r, (Op.invert y, r) ∈ trace g v i ops → r = .ok x := by
  intro r hr
  obtain ⟨y', h1, h2, h3⟩ := c66_history hg h hc ops hops i _ he
  cases h1
  have h4 := c66_history hg h hc ops hops i _ hr
  simp only [Spec] at h4 h3
  rw [if_pos (by rw [h3]; exact Nat.mod_lt _ h.key.key.Npos)] at h4
  obtain ⟨z, rfl, z2, z3, z4⟩ := h4
  have : z = x := h.key.msg_eq ⟨z2, z3⟩ ⟨hx, hxN⟩ (by
    show beNat z ^ (abs v.ctx).E % (abs v.ctx).N = beNat x ^ (abs v.ctx).E % (abs v.ctx).N
    rw [z4, h3])
  rw [this]

/-- **C66**: the constructor from a string makes such an object from every key that passes the checks, if its factors are primes and the modulus has 256 bytes. -/
theorem c66_from_string {a : PrivElems} (hf : a.Fits) (hp : (beNat a.p).Prime) (hq : (beNat a.q).Prime) {v : Inv} (h : importPriv a = .ok v)
    (hlen : 256 ^ 255 ≤ beNat a.n) (hlen2 : beNat a.n < 256 ^ 256) :
    Ready v { D := beNat a.d, P := beNat a.p, Q := beNat a.q, DP := beNat a.dp, DQ := beNat a.dq, QP := beNat a.qp } ∧ (abs v.ctx).N = beNat a.n ∧
      (abs v.ctx).E = beNat a.e := by
  rcases importPriv_run hf with ⟨h1, w, w1, w2, w3⟩ | ⟨_, h1⟩
  · rw [h] at w1
    cases w1
    have hk := c37_imported (k := a.key) rfl h1 hp hq
    have hl : mpiSize (beNat a.n) = 256 := by
      have h2 := (Tdp.mpiSize_le_iff (beNat a.n) 256).2 hlen2
      have h3 : ¬ mpiSize (beNat a.n) ≤ 255 := fun hh => by
        have := (Tdp.mpiSize_le_iff (beNat a.n) 255).1 hh
        exact absurd this (not_lt.2 hlen)
      omega
    refine ⟨⟨w2, ?_, ?_⟩, by rw [w3]; rfl, by rw [w3]; rfl⟩
    · rw [w3]
      exact ⟨rfl, hk, hl, hlen2⟩
    · rw [w3]
      intro vi vf hh
      cases hh
  · rw [h] at h1
    cases h1

/-- **C66**: and it refuses every other key with the exception of the constructor; there is no third outcome. -/
theorem c66_string_outcomes {a : PrivElems} (hf : a.Fits) :
    (∃ v, importPriv a = .ok v ∧ Tdp.checkPriv a.key = true) ∨ (importPriv a = .exc .runtimeError ∧ Tdp.checkPriv a.key = false) := by
  rcases importPriv_run hf with ⟨h1, v, w1, _, _⟩ | ⟨h1, h2⟩
  · exact .inl ⟨v, w1, h1⟩
  · exact .inr ⟨h2, h1⟩

/-! ### A 2048-bit key -/

/-- The elements of the example key. -/
def exElems : PrivElems := ⟨beBytes 256 (Tdp.exP * Tdp.exQ), beBytes 3 65537, beBytes 256 exPriv.D, beBytes 128 exPriv.P, beBytes 128 exPriv.Q, beBytes 128 exPriv.DP,
  beBytes 128 exPriv.DQ, beBytes 128 exPriv.QP⟩

theorem exElems_fits : exElems.Fits := by
  constructor <;> simp only [exElems, Tdp.beBytes_length] <;> decide

theorem exElems_key : exElems.key = exKey := by
  unfold PrivElems.key exElems exKey
  simp only
  rw [beNat_beBytes_of_lt (show Tdp.exP * Tdp.exQ < 256 ^ 256 by decide +kernel), beNat_beBytes_of_lt (show 65537 < 256 ^ 3 by decide +kernel),
    beNat_beBytes_of_lt (show exPriv.D < 256 ^ 256 by decide +kernel), beNat_beBytes_of_lt (show exPriv.P < 256 ^ 128 by decide +kernel),
    beNat_beBytes_of_lt (show exPriv.Q < 256 ^ 128 by decide +kernel), beNat_beBytes_of_lt (show exPriv.DP < 256 ^ 128 by decide +kernel),
    beNat_beBytes_of_lt (show exPriv.DQ < 256 ^ 128 by decide +kernel), beNat_beBytes_of_lt (show exPriv.QP < 256 ^ 128 by decide +kernel),
    show mpiSize (Tdp.exP * Tdp.exQ) = 256 by decide +kernel]

theorem exInv : ∃ v, importPriv exElems = .ok v ∧ Ready v exPriv ∧ (abs v.ctx).N = exKey.N ∧ (abs v.ctx).E = 65537 := by
  rcases importPriv_run exElems_fits with ⟨_, v, w1, w2, w3⟩ | ⟨h, _⟩
  · refine ⟨v, w1, ⟨w2, ?_, ?_⟩, ?_, ?_⟩
    · rw [w3, exElems_key]; exact exKey_tdp
    · rw [w3, exElems_key]; exact exBlind
    · rw [w3, exElems_key]
    · rw [w3, exElems_key]; rfl
  · rw [exElems_key] at h
    exact absurd h (by decide +kernel)

theorem total_const (a : Nat) : Total (constRng a) := fun _ n => ⟨_, rfl, Tdp.beBytes_length n a⟩

theorem exCoprime (i : Nat) : ∃ j, j < 11 ∧ Nat.gcd (nums (constRng 2) (i + j) 255) exKey.N = 1 := by
  refine ⟨0, by decide, ?_⟩
  have : nums (constRng 2) (i + 0) 255 = 2 := by
    unfold nums constRng
    exact beNat_beBytes_of_lt (by decide +kernel)
  rw [this]
  decide +kernel

/-- Some operations, one of them with a number that is too large. -/
def exOps : List Op := [.eval exMsg, .invert exMsg, .invert (List.replicate 256 255), .invertMult exMsg 3, .sample, .invert exMsg, .eval exMsg]

theorem exOps_ok : ∀ op ∈ exOps, op.Ok := by
  have h : exMsg.length = 256 := exMsg_msg.1
  have h' : (List.replicate 256 (255 : UInt8)).length = 256 := List.length_replicate
  intro op hop
  simp only [exOps, List.mem_cons, List.not_mem_nil, or_false] at hop
  rcases hop with rfl | rfl | rfl | rfl | rfl | rfl | rfl
  · exact h
  · exact h
  · exact h'
  · exact h
  · trivial
  · exact h
  · exact h

example : ∃ v, importPriv exElems = .ok v ∧ ∀ r ∈ trace (constRng 2) v 0 exOps, Spec exKey.N 65537 r.1 r.2 := by
  obtain ⟨v, v1, v2, v3, v4⟩ := exInv
  refine ⟨v, v1, ?_⟩
  rw [← v3, ← v4]
  exact c66_history (total_const 2) v2 (by rw [v3]; exact exCoprime) exOps exOps_ok 0

example : ∃ v, importPriv exElems = .ok v ∧ ∀ y r, (Op.eval exMsg, Res.ok y) ∈ trace (constRng 2) v 0 [.eval exMsg, .invert y] →
    (Op.invert y, r) ∈ trace (constRng 2) v 0 [.eval exMsg, .invert y] → y.length = 256 → r = .ok exMsg := by
  obtain ⟨v, v1, v2, v3, v4⟩ := exInv
  refine ⟨v, v1, fun y r h1 h2 h3 => ?_⟩
  refine c66_inverse (total_const 2) v2 (by rw [v3]; exact exCoprime) [.eval exMsg, .invert y] ?_ 0 exMsg_msg.1 (by rw [v3]; exact exMsg_msg.2) h1 r h2
  intro op hop
  simp only [List.mem_cons, List.not_mem_nil, or_false] at hop
  rcases hop with rfl | rfl
  · exact exMsg_msg.1
  · exact h3

theorem key_parts (a : PrivElems) : a.key.N = beNat a.n ∧ a.key.priv.map Priv.P = some (beNat a.p) ∧ a.key.priv.map Priv.Q = some (beNat a.q) := ⟨rfl, rfl, rfl⟩

example : ∃ v s, importPriv exElems = .ok v ∧ Ready v s := by
  obtain ⟨v, v1, _⟩ := exInv
  obtain ⟨e3, e1, e2⟩ := key_parts exElems
  rw [exElems_key] at e1 e2 e3
  have e1 : Tdp.exP = beNat exElems.p := Option.some.inj e1
  have e2 : Tdp.exQ = beNat exElems.q := Option.some.inj e2
  exact ⟨v, _, v1, (c66_from_string exElems_fits (by rw [← e1]; exact exP_prime) (by rw [← e2]; exact exQ_prime) v1 (by rw [← e3]; decide +kernel)
    (by rw [← e3]; decide +kernel)).1⟩

theorem changed_fits {a : PrivElems} (h : a.Fits) : PrivElems.Fits { a with d := [1] } := by
  constructor
  all_goals first | exact h.n | exact h.e | exact h.p | exact h.q | exact h.dp | exact h.dq | exact h.qp | skip
  show [(1 : UInt8)].length ≤ 40000
  rw [List.length_singleton]; omega

theorem changed_key (a : PrivElems) : PrivElems.key { a with d := [1] } = { a.key with priv := a.key.priv.map fun s => { s with D := 1 } } := rfl

example : importPriv { exElems with d := [1] } = .exc .runtimeError := by
  rcases c66_string_outcomes (changed_fits exElems_fits) with ⟨_, _, h⟩ | ⟨h, _⟩
  · rw [changed_key, exElems_key] at h
    exact absurd h (by decide +kernel)
  · exact h

/-! ## C67: key generation -/

/-- **C67**: the outcomes of `mbedtls_rsa_gen_key`: a pair of numbers that the primality test accepted, with the numbers of the key made from them; no end
within the bounds of the model; or an error, with an empty context, which is one of: sizes out of range, an error of the generator, or two accepted numbers
with a common factor. -/
theorem c67_outcomes {g : Rng} (hg : g.Ok) {f fuel nbits e : Nat} (hnb : nbits ≤ 8192) (hf : f ≤ 2 ^ (nbits / 2 + 4)) (he : e < W64) (i : Nat) :
    (∃ c j, rsaGenKey g f fuel nbits e .init i = (.ok true, c, j) ∧ Made g nbits e c) ∨
    (∃ c j, rsaGenKey g f fuel nbits e .init i = (.ok false, c, j)) ∨
    ∃ er j, rsaGenKey g f fuel nbits e .init i = (.err er, .init, j) ∧ ((er = .badInput ∧ j = i ∧ (nbits < 128 ∨ e < 3 ∨ nbits % 2 = 1)) ∨
      (∃ t n, g t n = .err er) ∨ ∃ p q, q < p ∧ Accepted g (nbits / 2) p ∧ Accepted g (nbits / 2) q ∧ Nat.gcd q p ≠ 1) := by
  obtain ⟨o, c, j, h1, ⟨rfl, h2⟩ | rfl | ⟨er, rfl, rfl, h2⟩⟩ := rsaGenKey_run (fuel := fuel) hg hnb hf he i
  · exact .inl ⟨c, j, h1, h2⟩
  · exact .inr (.inl ⟨c, j, h1⟩)
  · exact .inr (.inr ⟨er, j, h1, h2⟩)

/-- **C67**: sizes that are not accepted are refused before anything is drawn. -/
theorem c67_sizes (g : Rng) (f fuel : Nat) {nbits : Nat} {e : Int} (h : nbits < 128 ∨ e < 3 ∨ nbits % 2 = 1) (c : Ctx) (i : Nat) :
    rsaGenKey g f fuel nbits e c i = (.err .badInput, c, i) := by
  unfold rsaGenKey
  by_cases h1 : nbits < 128 ∨ e < 3
  · rw [if_pos h1]
  · rw [if_neg h1, if_pos (by omega)]

/-- What a number is that the primality test accepted: if it is not prime, then all bases that were tried, as many as table 4.4 of the Handbook of Applied
Cryptography asks for, are among the at most quarter of the numbers below it which do not show this. -/
theorem Accepted.liars {g : Rng} (hg : g.Ok) {b n : Nat} (h : Accepted g b n) (hn : ¬ n.Prime) :
    ∃ (liars : Finset Nat) (bases : List Nat), 4 * liars.card ≤ n - 1 ∧ (∀ a ∈ liars, a < n ∧ Strong n a) ∧ HacRounds n bases.length ∧ ∀ a ∈ bases, a ∈ liars := by
  obtain ⟨X, k, j, x1, x2, x3, x4⟩ := h.test
  have e1 : X.toInt.natAbs = n := by rw [natAbs_toInt, x3]
  obtain ⟨l, bs, h1, h2, h3, h4⟩ := c64_composite_quarter hg x1 x4 (by rw [e1]; exact hn)
  rw [e1] at h1 h2 h3
  exact ⟨l, bs, h1, h2, h3, fun a ha => (h4 a ha).1⟩

/-- **C67**: the key that `Tdp` generates (2048 bits, exponent 65537): if the two numbers that were found are primes, the constructor makes an object with
a private key for it, for which C66 holds; and if one of them is not, this is because the primality test was deceived in every one of its rounds. -/
theorem c67_generated {g : Rng} (hg : g.Ok) {f fuel : Nat} (hf : f ≤ 2 ^ 1028) {c : Ctx} {i j : Nat}
    (h : rsaGenKey g f fuel 2048 65537 .init i = (.ok true, c, j)) :
    (c.P.mag.Prime → c.Q.mag.Prime → ∃ v s, mkInv c = .ok v ∧ v.ctx = c ∧ Ready v s ∧ (abs c).E = 65537 ∧ (abs c).N = c.P.mag * c.Q.mag) ∧
    ∀ n, (n = c.P.mag ∨ n = c.Q.mag) → ¬ n.Prime → ∃ (liars : Finset Nat) (bases : List Nat), 4 * liars.card ≤ n - 1 ∧ (∀ a ∈ liars, a < n ∧ Strong n a) ∧
      HacRounds n bases.length ∧ ∀ a ∈ bases, a ∈ liars := by
  have hm : Made g 2048 65537 c := by
    rcases c67_outcomes (fuel := fuel) (nbits := 2048) (e := 65537) hg (by decide) hf (by decide) i with ⟨c', j', h1, h2⟩ | ⟨c', j', h1⟩ | ⟨er, j', h1, _⟩
    · have := h.symm.trans h1
      cases this
      exact h2
    · cases h.symm.trans h1
    · cases h.symm.trans h1
  refine ⟨fun hp hq => ?_, ?_⟩
  · obtain ⟨s, s1, s2, s3, s4, s5⟩ := c37_generated (prime := fun k => if k = 0 then c.P.mag else c.Q.mag)
      (by intro k; split <;> assumption)
      (by intro k; split; exacts [hm.accP.odd, hm.accQ.odd]) hm.gen
    have hv := mkInv_run hm.good hm.parts
    rw [if_pos s5] at hv
    obtain ⟨v, v1, v2, v3⟩ := hv
    refine ⟨v, s, v1, v2, ⟨v3, by rw [v2]; exact s1, by rw [v2]; exact s2⟩, s4, ?_⟩
    have hk : (abs c).priv = some s := s1.priv
    have hN := s1.key.mod
    unfold abs at hk
    simp only at hk
    rw [if_neg hm.parts, Option.some.injEq] at hk
    rw [hN, ← hk]
  · rintro n (rfl | rfl) hn
    · exact hm.accP.liars hg hn
    · exact hm.accQ.liars hg hn

/-- **C67**: key generation ends with the first pair of numbers that it finds, if they are different, their product has the size that was asked for, they have
no common factor, and the exponent has none with the product of their predecessors. -/
theorem c67_first_pair {g : Rng} (hg : g.Ok) {f nbits e : Nat} (hnb : 128 ≤ nbits) (hnb2 : nbits ≤ 8192) (hev : nbits % 2 = 0) (hf : f ≤ 2 ^ (nbits / 2 + 4)) (he3 : 3 ≤ e)
    (he : e < W64) {i j k : Nat} {P Q : Mpi} (h1 : primeFor g f .null (nbits / 2) i = (.ok (some P), j)) (h2 : primeFor g f .null (nbits / 2) j = (.ok (some Q), k))
    (hne : P.mag ≠ Q.mag) (hb : bitlen (P.mag * Q.mag) = nbits) (hgcd : Nat.gcd e ((P.mag - 1) * (Q.mag - 1)) = 1) (hco : Nat.gcd P.mag Q.mag = 1) (fuel : Nat) :
    ∃ c, rsaGenKey g f (fuel + 1) nbits e .init i = (.ok true, c, k) ∧ Made g nbits e c ∧ c.P.mag = max P.mag Q.mag ∧ c.Q.mag = min P.mag Q.mag :=
  rsaGenKey_first hg hnb hnb2 hev hf he3 he h1 h2 hne hb hgcd hco fuel

/-- A generator that gives the primes of the example key when a prime is asked for, and 2 otherwise. -/
def genRng : Rng := fun i n => .ok (beBytes n (if i = 0 then Tdp.exP else if i = 7 then Tdp.exQ else 2))

theorem genRng_ok : genRng.Ok := fun _ n => Or.inl ⟨_, rfl, Tdp.beBytes_length n _⟩

theorem genRng_use {p k i : Nat} (hk : limbs p ≤ k) (hp : 997 < p) (h0 : i ≠ 0) (h7 : i ≠ 7) : ∃ b, genRng i (k * 8) = .ok b ∧ Usable p (baseOf p b) := by
  have hk0 : 1 ≤ k := by
    by_contra h
    rw [show k = 0 by omega, limbs_le_iff, pow_zero] at hk
    omega
  refine ⟨_, rfl, ?_⟩
  rw [if_neg h0, if_neg h7, constRng_base (lt_of_lt_of_le (by decide : 2 < 256 ^ 1) (Nat.pow_le_pow_right (by decide) (by omega))) (by omega)]
  exact ⟨by omega, by omega⟩

theorem genRng_good {p k : Nat} (hk : limbs p ≤ k) (hp : 997 < p) : genRng.Good (k * 8) p := by
  refine ⟨fun i => ⟨_, rfl⟩, fun i => ?_⟩
  by_cases h : i = 0 ∨ i = 7
  · exact ⟨1, by omega, genRng_use hk hp (by omega) (by omega)⟩
  · exact ⟨0, by omega, genRng_use hk hp (by omega) (by omega)⟩

theorem firstCand_self {p : Nat} (h1 : 2 ^ 1023 ≤ p) (h2 : p < 2 ^ 1024) (h3 : p ||| 2 ^ (1024 - 1) ||| 1 = p) (h4 : p < 256 ^ (bitsToLimbs 1024 * 8)) :
    firstCand 1024 (beNat (beBytes (bitsToLimbs 1024 * 8) p)) = p := by
  unfold firstCand
  rw [beNat_beBytes_of_lt h4, if_neg (by
    have := Nat.size_le.2 h2
    omega), h3]

theorem exBits {p : Nat} (h1 : 2 ^ 1023 ≤ p) (h2 : p < 2 ^ 1024) : mrRounds (bitlen p) = 3 := by
  have a := (Bignum.bitlen_le_iff p 1024).2 h2
  have b : ¬ bitlen p ≤ 1023 := fun h => by
    have := (Bignum.bitlen_le_iff p 1023).1 h
    exact absurd this (not_lt.2 h1)
  have : bitlen p = 1024 := by omega
  rw [this]
  rfl

theorem exGen : ∃ c, rsaGenKey genRng 1 1 2048 65537 .init 0 = (.ok true, c, 14) ∧ Made genRng 2048 65537 c ∧ c.P.mag.Prime ∧ c.Q.mag.Prime := by
  have p1 : 2 ^ 1023 ≤ Tdp.exP := by decide +kernel
  have p2 : Tdp.exP < 2 ^ 1024 := by decide +kernel
  have q1 : 2 ^ 1023 ≤ Tdp.exQ := by decide +kernel
  have q2 : Tdp.exQ < 2 ^ 1024 := by decide +kernel
  have p3 : 997 < Tdp.exP := by decide +kernel
  have q3 : 997 < Tdp.exQ := by decide +kernel
  have rp := exBits p1 p2
  have rq := exBits q1 q2
  obtain ⟨P, hP, eP⟩ := primeFor_prime (g := genRng) genRng_ok (b := 1024) (f := 1) (i := 0) (p := Tdp.exP) (by decide) (by decide) (by decide) exP_prime p3 rfl
    (firstCand_self p1 p2 (by decide +kernel) (by decide +kernel)) (fun k hk => genRng_good hk p3)
    (fun k hk t h1 h2 => genRng_use hk p3 (by omega) (by rw [rp] at h2; omega))
  rw [rp] at hP
  obtain ⟨Q, hQ, eQ⟩ := primeFor_prime (g := genRng) genRng_ok (b := 1024) (f := 1) (i := 7) (p := Tdp.exQ) (by decide) (by decide) (by decide) exQ_prime q3 rfl
    (firstCand_self q1 q2 (by decide +kernel) (by decide +kernel)) (fun k hk => genRng_good hk q3)
    (fun k hk t h1 h2 => genRng_use hk q3 (by omega) (by omega))
  rw [rq] at hQ
  have hlt : Tdp.exQ < Tdp.exP ∨ Tdp.exP < Tdp.exQ := by decide +kernel
  obtain ⟨c, c1, c2, c3, c4⟩ := c67_first_pair genRng_ok (nbits := 2048) (e := 65537) (by decide) (by decide) (by decide) (Nat.one_le_two_pow) (by decide) (by decide) hP hQ
    (by rw [eP, eQ]; decide +kernel) (by rw [eP, eQ]; decide +kernel) (by rw [eP, eQ]; decide +kernel) (by rw [eP, eQ]; decide +kernel) 0
  refine ⟨c, c1, c2, ?_, ?_⟩
  · rw [c3, eP, eQ]
    rcases max_choice Tdp.exP Tdp.exQ with h | h <;> rw [h]
    exacts [exP_prime, exQ_prime]
  · rw [c4, eP, eQ]
    rcases min_choice Tdp.exP Tdp.exQ with h | h <;> rw [h]
    exacts [exP_prime, exQ_prime]

example : ∃ c v s, rsaGenKey genRng 1 1 2048 65537 .init 0 = (.ok true, c, 14) ∧ mkInv c = .ok v ∧ Ready v s := by
  obtain ⟨c, c1, _, c3, c4⟩ := exGen
  obtain ⟨v, s, v1, _, v2, _⟩ := (c67_generated genRng_ok (Nat.one_le_two_pow) c1).1 c3 c4
  exact ⟨c, v, s, c1, v1, v2⟩

example : rsaGenKey genRng 1 1 2047 65537 .init 0 = (.err .badInput, .init, 0) := c67_sizes _ _ _ (by decide) _ _
example := c67_outcomes (fuel := 3) genRng_ok (nbits := 2048) (e := 65537) (by decide) (Nat.one_le_two_pow) (by decide) 0

end Verif.Rsa
