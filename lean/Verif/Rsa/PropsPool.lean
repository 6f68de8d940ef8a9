import Verif.Rsa.Props

/-!
# C68 and C69: objects with a public key, pools, and copies, on multi-precision integers
-/

namespace Verif.Rsa

open Verif Verif.Bignum Verif.Tdp

/-! ## C68: pools -/

/-- Operations on a pool; after `copy` the next ones are done with the copy. -/
inductive POp
  | eval (m : Bytes) (order : Nat)
  | copy

def POp.Ok : POp → Prop
  | .eval m order => m.length = 256 ∧ order ≠ 0
  | .copy => True

/-- The results of a sequence of operations, which stops when a copy fails. -/
def poolTrace : Pool → List POp → List (POp × Res Bytes)
  | _, [] => []
  | p, .eval m order :: ops =>
    let r := evalPool p m order
    (.eval m order, r.1) :: poolTrace r.2 ops
  | p, .copy :: ops =>
    match p.copy with
    | .ok q => (.copy, .ok []) :: poolTrace q ops
    | .exc e => [(.copy, .exc e)]
    | .ub => [(.copy, .ub)]

/-- What the operations on a pool are to give. -/
def PoolSpec (N E size : Nat) : POp → Res Bytes → Prop
  | .eval m order, r =>
    if order ≤ size then ∃ y, r = .ok y ∧ y.length = 256 ∧ beNat y = beNat m ^ (E * 65537 ^ (order - 1)) % N else r = .exc .invalidArgument
  | .copy, r => r = .ok []

theorem poolTrace_run {k : Tdp.Rsa} (hl : k.len = 256) (hs : k.N < 256 ^ 256) (ho : k.N % 2 = 1) {size : Nat} (hsz : size < 256) {q : Tdp.Pool}
    (hq : Tdp.mkPool k size = .ok q) {p : Pool} (hp : GoodPool p) (he : absPool p = q) (ops : List POp) (hops : ∀ op ∈ ops, op.Ok) :
    ∀ r ∈ poolTrace p ops, PoolSpec k.N k.E size r.1 r.2 := by
  induction ops generalizing p with
  | nil => intro r hr; simp [poolTrace] at hr
  | cons op ops ih =>
    have hrest : ∀ o ∈ ops, o.Ok := fun o ho => hops o (by simp [ho])
    have hop := hops op (by simp)
    cases op with
    | eval m order =>
      obtain ⟨e1, e2, e3⟩ := evalPool_run hp hop.1 order
      intro r hr
      rw [poolTrace] at hr
      rcases List.mem_cons.1 hr with rfl | hr
      · simp only [PoolSpec]
        rw [e3, he]
        by_cases h : order ≤ size
        · rw [if_pos h]
          have h0 := hop.2
          refine ⟨_, c39_exponent hl hs ho hsz hq m (by omega) h, Tdp.beBytes_length _ _, ?_⟩
          rw [beNat_beBytes_of_lt (lt_trans (Nat.mod_lt _ (by omega)) hs)]
        · rw [if_neg h]
          exact c39_order_above hsz hq m (by omega)
      · exact ih e1 (e2.trans he) hrest r hr
    | copy =>
      obtain ⟨q', c1, c2, c3, _⟩ := poolCopy_run hp
      intro r hr
      rw [poolTrace, c1] at hr
      rcases List.mem_cons.1 hr with rfl | hr
      · rfl
      · exact ih c2 (c3.trans he) hrest r hr

/-- **C68**: a pool that was built from a public key gives, for every order up to its size, the power with exponent E 65537^(order-1), and refuses larger
orders, whatever evaluations and copies came before: the constants which the evaluations leave in the keys, and which are copied with them, do not matter. -/
theorem c68_pool {n e : Bytes} (hn : n.length ≤ 2400) (he : e.length ≤ 2400) (hlen : 256 ^ 255 ≤ beNat n) (hlen2 : beNat n < 256 ^ 256) {c : Ctx}
    (hc : importPub n e = .ok c) {size : Nat} (hsz : size < 256) {p : Pool} (hp : mkPool c size = .ok p) (ops : List POp) (hops : ∀ op ∈ ops, op.Ok) :
    ∀ r ∈ poolTrace p ops, PoolSpec (beNat n) (beNat e) size r.1 r.2 := by
  rcases importPub_run hn he with ⟨h1, c', w1, w2, w3⟩ | ⟨_, h1⟩
  swap
  · rw [hc] at h1; cases h1
  rw [hc] at w1
  cases w1
  have hm := mkPool_run w2 size
  have hl : mpiSize (beNat n) = 256 := by
    have h2 := (Tdp.mpiSize_le_iff (beNat n) 256).2 hlen2
    have h3 : ¬ mpiSize (beNat n) ≤ 255 := fun hh => by
      have := (Tdp.mpiSize_le_iff (beNat n) 255).1 hh
      exact absurd this (not_lt.2 hlen)
    omega
  rw [w3] at hm
  rcases hq : Tdp.mkPool { len := mpiSize (beNat n), N := beNat n, E := beNat e, priv := none, blind := none } size with q | x | _ <;> rw [hq] at hm
  · obtain ⟨p', m1, m2, m3⟩ := hm
    rw [hp] at m1
    cases m1
    exact poolTrace_run (k := { len := mpiSize (beNat n), N := beNat n, E := beNat e, priv := none, blind := none }) hl hlen2 (checkPub_true h1).2 hsz hq m3 m2 ops hops
  · simp only at hm
    rw [hp] at hm; cases hm
  · simp only at hm
    rw [hp] at hm; cases hm

/-- **C68**: for a 2048-bit modulus and the exponent 65537 the pools of the sizes 2 to 127 can be built, and for larger sizes below 256 the constructor throws. -/
theorem c68_sizes {n e : Bytes} (hn : n.length ≤ 2400) (he : e.length ≤ 2400) (hlen : 2 ^ 2047 ≤ beNat n) (hlen2 : beNat n < 2 ^ 2048) (hE : beNat e = 65537) {c : Ctx}
    (hc : importPub n e = .ok c) {size : Nat} (hsz : size < 256) :
    (2 ≤ size → size ≤ 127 → ∃ p, mkPool c size = .ok p) ∧ (128 ≤ size → mkPool c size = .exc .runtimeError) := by
  rcases importPub_run hn he with ⟨h1, c', w1, w2, w3⟩ | ⟨_, h1⟩
  swap
  · rw [hc] at h1; cases h1
  rw [hc] at w1
  cases w1
  have hm := mkPool_run w2 size
  have hz := c39_sizes w2.pub (by rw [w3]; exact hlen) (by rw [w3]; exact hlen2) (by rw [w3]; exact hE) hsz
  refine ⟨fun h2 h3 => ?_, fun h2 => ?_⟩
  · obtain ⟨q, hq⟩ := hz.1 h2 h3
    rw [hq] at hm
    obtain ⟨p, p1, _⟩ := hm
    exact ⟨p, p1⟩
  · rw [hz.2 h2] at hm
    exact hm

theorem exPub : ∃ c, importPub exElems.n exElems.e = .ok c ∧ PoolKey c ∧ abs c = { exKey with priv := none } := by
  have e0 : ∀ a : PrivElems, ({ len := mpiSize (beNat a.n), N := beNat a.n, E := beNat a.e, priv := none, blind := none } : Tdp.Rsa) = { a.key with priv := none } := fun _ => rfl
  have h := importPub_run exElems_fits.n exElems_fits.e
  rw [e0, exElems_key] at h
  rcases h with ⟨_, h⟩ | ⟨h, _⟩
  · exact h
  · exact absurd h (by decide +kernel)

theorem key_E (a : PrivElems) : a.key.E = beNat a.e := rfl

theorem exElems_N : beNat exElems.n = exKey.N := by
  have := (key_parts exElems).1
  rw [exElems_key] at this
  exact this.symm

theorem exElems_E : beNat exElems.e = 65537 := by
  have := key_E exElems
  rw [exElems_key] at this
  exact this.symm

example : ∃ c p, importPub exElems.n exElems.e = .ok c ∧ mkPool c 100 = .ok p ∧
    ∀ r ∈ poolTrace p [.eval exMsg 1, .eval exMsg 77, .copy, .eval exMsg 77, .copy, .copy, .eval exMsg 101], PoolSpec exKey.N 65537 100 r.1 r.2 := by
  obtain ⟨c, c1, _⟩ := exPub
  obtain ⟨p, p1⟩ := (c68_sizes exElems_fits.n exElems_fits.e (by rw [exElems_N]; decide +kernel) (by rw [exElems_N]; decide +kernel) exElems_E c1 (size := 100) (by decide)).1
    (by decide) (by decide)
  refine ⟨c, p, c1, p1, ?_⟩
  rw [← exElems_N, ← exElems_E]
  refine c68_pool exElems_fits.n exElems_fits.e (by rw [exElems_N]; decide +kernel) (by rw [exElems_N]; decide +kernel) c1 (by decide) p1 _ ?_
  have h : exMsg.length = 256 := exMsg_msg.1
  intro op hop
  simp only [List.mem_cons, List.not_mem_nil, or_false] at hop
  rcases hop with rfl | rfl | rfl | rfl | rfl | rfl | rfl
  · exact ⟨h, by decide⟩
  · exact ⟨h, by decide⟩
  · trivial
  · exact ⟨h, by decide⟩
  · trivial
  · trivial
  · exact ⟨h, by decide⟩

/-! ## C69: objects with a public key, and copies -/

/-- Operations on an object with a public key; after `copy` the next ones are done with the copy. -/
inductive UOp
  | eval (m : Bytes)
  | sample
  | generate (rnd : Bytes)
  | copy

def UOp.Ok : UOp → Prop
  | .eval m => m.length = 256
  | .generate rnd => rnd.length = 264
  | _ => True

def pubTrace (g : Rng) : Ctx → Nat → List UOp → List (UOp × Res Bytes)
  | _, _, [] => []
  | c, i, .eval m :: ops =>
    let r := evalArray c m
    (.eval m, r.1) :: pubTrace g r.2 i ops
  | c, i, .sample :: ops => (.sample, sample g c i) :: pubTrace g c (i + 1) ops
  | c, i, .generate rnd :: ops => (.generate rnd, generate c rnd) :: pubTrace g c i ops
  | c, i, .copy :: ops =>
    match duplicate c with
    | .ok d => (.copy, .ok []) :: pubTrace g d i ops
    | .exc e => [(.copy, .exc e)]
    | .ub => [(.copy, .ub)]

/-- What the operations are to give. -/
def PubSpec (N E : Nat) : UOp → Res Bytes → Prop
  | .eval m, r => ∃ y, r = .ok y ∧ y.length = 256 ∧ beNat y = beNat m ^ E % N
  | .sample, r => ∃ y, r = .ok y ∧ y.length = 256 ∧ beNat y < N
  | .generate rnd, r => ∃ y, r = .ok y ∧ y.length = 256 ∧ beNat y = beNat rnd % N
  | .copy, r => r = .ok []

/-- **C69**: an object with a public key gives the powers with its exponent, and messages below its modulus, whatever evaluations and copies came before. -/
theorem c69_public {g : Rng} (hg : Total g) {c : Ctx} (hc : PoolKey c) (hl : (abs c).len = 256) (hs : (abs c).N < 256 ^ 256) (ops : List UOp)
    (hops : ∀ op ∈ ops, op.Ok) (i : Nat) : ∀ r ∈ pubTrace g c i ops, PubSpec (abs c).N (abs c).E r.1 r.2 := by
  have ho := (checkPub_true hc.pub).2
  have hpos : 0 < (abs c).N := by omega
  induction ops generalizing c i with
  | nil => intro r hr; simp [pubTrace] at hr
  | cons op ops ih =>
    have hrest : ∀ o ∈ ops, o.Ok := fun o ho => hops o (by simp [ho])
    have hop := hops op (by simp)
    intro r hr
    cases op with
    | eval m =>
      obtain ⟨RN, r1, r2, r3⟩ := evalArray_run hc.good (inp := m) hop
      rw [pubTrace] at hr
      rcases List.mem_cons.1 hr with rfl | hr
      · refine ⟨beBytes 256 (beNat m ^ (abs c).E % (abs c).N), ?_, Tdp.beBytes_length _ _, ?_⟩
        · show (evalArray c m).1 = _
          rw [r3]
          exact evalArray_eq hl hs ho m
        · rw [beNat_beBytes_of_lt (lt_trans (Nat.mod_lt _ hpos) hs)]
      · rw [r1] at hr
        exact ih (c := { c with RN := RN }) (hc.setRN r2) hl hs hrest i ho hpos r hr
    | sample =>
      rw [pubTrace] at hr
      rcases List.mem_cons.1 hr with rfl | hr
      · obtain ⟨m, m1, m2, _⟩ := c40_sample (nums g) hpos hs i
        exact ⟨m, by rw [← m1]; exact sample_run hg hc.good i, m2.1, m2.2⟩
      · exact ih hc hl hs hrest _ ho hpos r hr
    | generate rnd =>
      rw [pubTrace] at hr
      rcases List.mem_cons.1 hr with rfl | hr
      · refine ⟨beBytes 256 (beNat rnd % (abs c).N), ?_, Tdp.beBytes_length _ _, ?_⟩
        · show generate c rnd = _
          rw [generate_run hc.good hop, mpiMod_nat hpos]
          simp only [orThrow, Res.bind_ok, writeZeroed]
          unfold msgSize
          rw [mpiWrite_some (lt_trans (Nat.mod_lt _ hpos) hs)]
          rfl
        · rw [beNat_beBytes_of_lt (lt_trans (Nat.mod_lt _ hpos) hs)]
      · exact ih hc hl hs hrest _ ho hpos r hr
    | copy =>
      rcases duplicate_run hc.good hc.trim with ⟨a, _⟩ | ⟨_, d, d1, d2, d3, d4, d5⟩
      · exfalso
        unfold Tdp.duplicate at a
        rw [show Tdp.rsaCopy (abs c) = abs c from rfl, if_neg (by rw [hc.pub]; simp)] at a
        cases a
      · rw [pubTrace, d1] at hr
        rcases List.mem_cons.1 hr with rfl | hr
        · rfl
        · have := ih (c := d) ⟨d2, d3, by rw [d4]; exact d5⟩ (by rw [d4]; exact hl) (by rw [d4]; exact hs) hrest i (by rw [d4]; exact ho) (by rw [d4]; exact hpos) r hr
          rwa [d4] at this

example : ∃ c, importPub exElems.n exElems.e = .ok c ∧
    ∀ r ∈ pubTrace (constRng 2) c 0 [.eval exMsg, .copy, .eval exMsg, .sample, .copy, .generate (List.replicate 264 7)], PubSpec exKey.N 65537 r.1 r.2 := by
  obtain ⟨c, c1, c2, c3⟩ := exPub
  refine ⟨c, c1, ?_⟩
  have h := c69_public (total_const 2) c2 (by rw [c3]; rfl) (by rw [c3]; exact exKey_tdp.size)
    [.eval exMsg, .copy, .eval exMsg, .sample, .copy, .generate (List.replicate 264 7)] (by
      intro op hop
      simp only [List.mem_cons, List.not_mem_nil, or_false] at hop
      rcases hop with rfl | rfl | rfl | rfl | rfl | rfl
      · exact exMsg_msg.1
      · trivial
      · exact exMsg_msg.1
      · trivial
      · trivial
      · exact List.length_replicate) 0
  rw [c3] at h
  exact h

/-- A context with the modulus `N`, the exponent 5 and the constant `RN`. -/
def tinyCtx (N RN : List Nat) : Ctx := { Ctx.init with len := 256, N := ⟨false, N⟩, E := ⟨false, [5]⟩, RN := ⟨false, RN⟩ }

/-- The number 3. -/
def msg3 : Bytes := List.replicate 255 0 ++ [3]

theorem num_list {l : List Nat} {k : Nat} (h : ∀ x ∈ l, x < W64) (hl : l.length ≤ k) (hk : k ≤ 10000) : Num k (⟨false, l⟩ : Mpi) :=
  ⟨⟨h, by unfold maxLimbs; exact le_trans hl hk⟩, rfl, rfl, hl⟩

theorem tiny_good {N RN : List Nat} (h1 : ∀ x ∈ N, x < W64) (h2 : N.length ≤ 300) (h3 : ∀ x ∈ RN, x < W64) (h4 : RN.length ≤ 300)
    (h5 : (⟨false, RN⟩ : Mpi).mag = W64 ^ N.length * W64 ^ N.length % (⟨false, N⟩ : Mpi).mag) : Good (tinyCtx N RN) := by
  have z : ∀ k, Num k Mpi.null := fun k => num_null k
  have hc : ∀ X, CacheOk X (some Mpi.null) := fun _ => cacheOk_null
  refine ⟨num_list h1 h2 (by decide), num_list (by decide) (by decide) (by decide), z _, z _, z _, z _, z _, z _, ?_, hc _, hc _, z _, z _, ?_, ?_⟩
  · intro m hm _
    cases hm
    exact ⟨(num_list h3 h4 (by decide)).wf, rfl, h5⟩
  · show limbs Mpi.null.mag ≤ 301
    decide
  · show limbs Mpi.null.mag ≤ 301
    decide

/-- C69, a negative result: `mbedtls_rsa_copy` does not always give a context that works like the one it copies.  It copies the Montgomery constant, which
depends on the number of limbs of the modulus, but not the limbs of the modulus that are 0.  Here such a context has all its members in shape and evaluates
rightly, and its copy does not.  The modulus of a generated key can have such limbs, but the code makes no copies of generated keys. -/
theorem c69_copy_false : ∃ (c d : Ctx) (m : Bytes), Good c ∧ freshCopy c = .ok d ∧ m.length = 256 ∧ (evalArray c m).1 = .ok (beBytes 256 (beNat m ^ c.E.mag % c.N.mag)) ∧
    (evalArray d m).1 ≠ .ok (beBytes 256 (beNat m ^ c.E.mag % c.N.mag)) :=
  ⟨tinyCtx [7, 0] [2], tinyCtx [7] [2], msg3, tiny_good (by decide) (by decide) (by decide) (by decide) (by decide +kernel), rfl, by decide +kernel, by decide +kernel, by decide +kernel⟩

/-- C69, a negative result: nor does `TdpImpl_mbedTLS::operator=`, which copies into integers that may have more limbs; here the source is a context as the
constructors make it, with the right constant.  The operator is not used by the classes of the interface. -/
theorem c69_assign_false : ∃ (t c d : Ctx) (m : Bytes), Good t ∧ Trim t ∧ Good c ∧ Trim c ∧ assign t c = .ok d ∧ m.length = 256 ∧
    (evalArray c m).1 = .ok (beBytes 256 (beNat m ^ c.E.mag % c.N.mag)) ∧ (evalArray d m).1 ≠ .ok (beBytes 256 (beNat m ^ c.E.mag % c.N.mag)) :=
  ⟨tinyCtx [5, 1] [625], tinyCtx [7] [4], tinyCtx [7, 0] [4], msg3, tiny_good (by decide) (by decide) (by decide) (by decide) (by decide +kernel),
    ⟨fun _ => by decide +kernel, Tight.null, Tight.null⟩, tiny_good (by decide) (by decide) (by decide) (by decide) (by decide +kernel),
    ⟨fun _ => by decide +kernel, Tight.null, Tight.null⟩, rfl, by decide +kernel, by decide +kernel, by decide +kernel⟩

end Verif.Rsa
