/-
C85: memory safety of the big integers, the RSA contexts and the trapdoor permutation objects, under failing
allocations: no use of uninitialised or released structures, no double release, nothing lost, everything erased before
it is released.
-/
import Verif.Heap.Client
import Verif.Heap.TdpGood

namespace Verif.Heap

/-! ### What is stated -/

/-- Every integer in scope is initialised; it holds no block and has no limbs, or it holds a live block of exactly
its number of limbs; no two integers hold the same block. -/
structure Fine (σ : St) : Prop where
  init : ∀ x, x < σ.nv → ∃ m, σ.vars x = some m ∧ (m.p = none → m.n = 0) ∧
    ∀ a, m.p = some a → a < σ.nh ∧ (σ.heap a).live = true ∧ (σ.heap a).size = m.n
  apart : ∀ x y m m' a, x < σ.nv → y < σ.nv → σ.vars x = some m → σ.vars y = some m' → m.p = some a → m'.p = some a → x = y

/-- The block `a` has not been released and no integer in scope holds it. -/
def Lost (σ : St) (a : Nat) : Prop :=
  a < σ.nh ∧ (σ.heap a).live = true ∧ ∀ x m, x < σ.nv → σ.vars x = some m → m.p ≠ some a

/-- The block `a` has been released and still contains a word that is not zero. -/
def Residue (σ : St) (a : Nat) : Prop :=
  a < σ.nh ∧ (σ.heap a).live = false ∧ ∃ j, j < (σ.heap a).size ∧ (σ.heap a).data j ≠ 0

/-- How a program that may change only the integers in `w` ends.  `lk`: blocks may be lost; `p`: residue may be left. -/
structure Safe (lk p : Bool) (w : List Nat) (σ : St) (o : Out) (σ' : St) : Prop where
  ends : o = .ok ∨ o = .err
  fine : Fine σ'
  scope : σ'.nv = σ.nv
  others : ∀ x m, x < σ.nv → x ∉ w → σ.vars x = some m →
    σ'.vars x = some m ∧ ∀ a, m.p = some a → σ'.heap a = σ.heap a
  lost : lk = false → ∀ a, Lost σ' a → Lost σ a
  residue : p = false → ∀ a, Residue σ' a → Residue σ a

/-! ### From the invariant -/

theorem inv_of_fine {σ : St} (h : Fine σ) : Inv ⟨Lost σ, Residue σ⟩ (fun _ => False) σ := by
  refine ⟨fun _ h => h.elim, fun x hx _ => h.init x hx, ?_, ?_, ?_⟩
  · rintro x y a hx hy - - ⟨m, hm, hp⟩ ⟨m', hm', hp'⟩
    exact h.apart x y m m' a hx hy hm hm' hp hp'
  · intro a ha hl
    by_cases hx : ∃ x, x < σ.nv ∧ Owns σ x a
    · obtain ⟨x, hx, ho⟩ := hx
      exact .inr ⟨x, hx, fun h => h, ho⟩
    · refine .inl ⟨ha, hl, fun x m hxn hm hp => hx ⟨x, hxn, m, hm, hp⟩⟩
  · intro a ha hl
    by_cases hd : ∀ j, j < (σ.heap a).size → (σ.heap a).data j = 0
    · exact .inr hd
    · obtain ⟨j, hj⟩ := Classical.not_forall.1 hd
      obtain ⟨hj, hne⟩ := Classical.not_imp.1 hj
      exact .inl ⟨ha, hl, j, hj, hne⟩

theorem fine_of_inv {σ : St} {L : Led} (h : Inv L (fun _ => False) σ) : Fine σ :=
  ⟨fun x hx => h.ini x hx fun h => h, fun x y m m' a hx hy hm hm' hp hp' =>
    h.inj x y a hx hy (fun h => h) (fun h => h) ⟨m, hm, hp⟩ ⟨m', hm', hp'⟩⟩

theorem safe_of_good {f : Fl} {V W : List Nat} {c : Cmd} {σ σ' : St} {o : Out} (hc : Good f V W c) (hr : ∀ b, f.r b = false)
    (hf : Fine σ) (hs : ∀ x, x ∈ V ∨ x ∈ W → x < σ.nv) (h : Run c σ o σ') : Safe (f.lk o) f.d W σ o σ' := by
  obtain ⟨f1, g1, L1, x1, i1⟩ := hc _ _ σ o σ' (inv_of_fine hf) (fun x hx => ⟨hs x hx, fun h => h⟩) h
  refine ⟨?_, fine_of_inv i1, g1.nv, ?_, ?_, ?_⟩
  · cases o with
    | ok => exact .inl rfl
    | err => exact .inr rfl
    | ret b => have := f1.ret b rfl; rw [hr] at this; cases this
    | ub => exact absurd rfl f1.ub
  · intro x m hx hw hm
    refine ⟨by rw [g1.vars x hx hw, hm], fun a ha => ?_⟩
    obtain ⟨m', hm', -, h2⟩ := hf.init x hx
    rw [hm] at hm'
    cases hm'
    refine g1.heap a (h2 a ha).1 ?_
    rintro y hy ⟨m', hm', hp'⟩
    have := hf.apart x y m m' a hx (hs y (.inr hy)) hm hm' ha hp'
    exact hw (this ▸ hy)
  · rintro hl a ⟨ha, hlive, hno⟩
    rcases i1.own a ha hlive with h | ⟨x, hx, -, m, hm, hp⟩
    · exact x1.leak' hl a h
    · exact absurd hp (hno x m hx hm)
  · rintro hd a ⟨ha, hlive, j, hj, hne⟩
    rcases i1.wip a ha hlive with h | h
    · exact x1.dirty' hd a h
    · exact absurd (h j hj) hne

/-! ### Calls -/

theorem call_good {g p : Bool} {r w : List Nat} {c : Cmd} (h : Call g p r w c) : Good { lo := g, d := p } r w c := by
  have cw : ∀ {k}, CtxW (ctx k) k := CtxW.of fun _ h => h
  have cr : ∀ {k} {V}, CtxR (ctx k) V k := CtxR.of fun _ h => .inl h
  cases h with
  | divMpi => exact divMpi_good rfl (fun x h => by simp [h]) (fun x h => by simp [h]) (by simp) (Rd.some (by simp))
  | divInt => exact divInt_good rfl (fun x h => by simp [h]) (fun x h => by simp [h]) (by simp)
  | expMod => exact expMod_good rfl (by simp) (by simp) (by simp) (by simp) fun _ h => by cases h
  | expModCache h =>
    simp only [List.mem_cons, List.not_mem_nil, or_false, not_or] at h
    exact expModS_good rfl (by simp) (by simp) (by simp) (by simp) (by simp) h.1 h.2.1 h.2.2.1 h.2.2.2
  | condAssign => exact condAssign_good rfl (by simp) (by simp)
  | condSwap => exact condSwap_good rfl (by simp) (by simp)
  | readString => exact readString_good rfl (by simp)
  | writeString => exact writeString_good rfl (by simp)
  | isPrime => exact isPrime_good rfl (by simp) fun h => .inl h
  | genPrime => exact genPrime_good rfl (by simp) fun h => h
  | rsaFree => exact rsaFree_good cw
  | genKey => exact genKey_good rfl cw fun h => h
  | checkPubkey => exact checkPubkey_good rfl (.inl (cw.h0)) (.inl cw.h1)
  | checkPrivkey => exact checkPrivkey_good rfl cr
  | checkPubPriv =>
    exact checkPubPriv_good rfl (CtxR.of fun _ h => .inl (by simp [h])) (CtxR.of fun _ h => .inl (by simp [h]))
  | rsaPublic => exact rsaPublic_good rfl (.inr cw.h0) (.inr cw.h1) cw.h8
  | rsaPrivate => exact rsaPrivate_good rfl cw
  | rsaCopy => exact rsaCopy_good rfl cw cr
  | rsaParsePublicKey h => exact rsaParsePublicKey_good rfl h cw
  | rsaParseKey h => exact rsaParseKey_good rfl h cw
  | writePubkeyPem h => exact writePubkeyPem_good rfl h cr
  | writeKeyPem h => exact writeKeyPem_good rfl h cr
  | mpiFree => exact Good.free (by simp)
  | grow => exact Good.grow rfl (by simp)
  | shrink => exact Good.shrink rfl (by simp)
  | swap => exact Good.swap (by simp) (by simp)
  | copy => exact copy_good rfl (by simp) (by simp)
  | lset => exact lset_good rfl (by simp)
  | look => exact look_good (by simp)
  | setBit => exact setBit_good rfl (by simp)
  | readBinary => exact readBinary_good rfl (by simp)
  | writeBinary => exact writeBinary_good rfl (by simp)
  | shiftL => exact shiftL_good rfl (by simp)
  | shiftR => exact shiftR_good rfl (by simp)
  | cmp => exact cmp_good (Rd.some (by simp)) (Rd.some (by simp))
  | cmpInt => exact cmp_good (Rd.some (by simp)) Rd.none
  | addAbs => exact addAbs_good rfl (by simp) (Rd.some (by simp)) (Rd.some (by simp))
  | subAbs => exact subAbs_good rfl (by simp) (Rd.some (by simp)) (Rd.some (by simp))
  | addMpi => exact addMpi_good rfl (by simp) (Rd.some (by simp)) (Rd.some (by simp))
  | subMpi => exact subMpi_good rfl (by simp) (Rd.some (by simp)) (Rd.some (by simp))
  | addInt => exact addInt_good rfl (by simp) (by simp)
  | subInt => exact subInt_good rfl (by simp) (by simp)
  | mulMpi => exact mulMpi_good rfl (by simp) (Rd.some (by simp)) (Rd.some (by simp))
  | mulInt => exact mulInt_good rfl (by simp) (by simp)
  | modMpi => exact modMpi_good rfl (by simp) (by simp) (by simp)
  | modInt => exact modInt_good rfl (by simp)
  | gcd => exact gcd_good rfl (by simp) (by simp) (by simp)
  | fillRandom => exact fillRandom_good rfl (by simp)
  | invMod => exact invMod_good rfl (by simp) (by simp) (by simp)

/-- C85: every call of a function of `bignum.c`, `rsa.c` or `rsa_io.c` on initialised integers, whatever the values
are, whichever allocations fail, and also if arguments are the same integer: no undefined behaviour, the integers are in
order afterwards, the `const` arguments and all other integers are unchanged, no block is lost (unless the generation of
a prime gives up), and every block that was released during the call was erased (unless PEM is involved). -/
theorem c85_call {g p : Bool} {r w : List Nat} {c : Cmd} {σ σ' : St} {o : Out} (h : Call g p r w c) (hf : Fine σ)
    (hs : ∀ x ∈ r ++ w, x < σ.nv) (hr : Run c σ o σ') : Safe g p w σ o σ' := by
  have := safe_of_good (call_good h) (fun _ => rfl) hf (fun x hx => hs x (by simpa using hx)) hr
  simpa [Fl.lk] using this

theorem prog_good {g p : Bool} {vs : List Nat} {c : Cmd} (h : Prog g p vs c) : Good { lo := g, d := p } [] vs c := by
  induction h with
  | call h hv =>
    exact (call_good h).mono (fun x hx => hv x (by simp [hx])) (fun x hx => .inr (hv x (by simp [hx]))) (fun _ h => h)
      (fun h => h) (fun h => h) (fun h => h) (fun h => h)
  | skip => exact Good.skip
  | fail => exact Good.fail rfl
  | seq _ _ ih ih' => exact ih.seq ih'
  | alt _ _ ih ih' => exact ih.alt ih'
  | loop _ ih => exact ih.loop
  | ign _ ih => exact Good.ign (fun h => by cases h) (fun h => h) (fun h => h) (fun _ h => h) ih
  | onEnd _ _ _ ih ih' ih'' => exact Good.onEnd ih ih' (ih''.mono (fun _ h => h) (fun _ h => .inl h)
      (fun _ h => by cases h) (fun h => h) (fun h => h) (fun h => h) (fun h => h)) rfl
  | scope _ ih =>
    rename_i k use _
    refine Good.locals (N := fun s => List.range' s k) (by intro b x; rw [List.mem_range'_1]) fun s hs => ?_
    exact Scoped.cleanup rfl (N1 := List.range' s k) (fun _ h => h) (Body.main (ih s)) (nulling_freeAll _ (by simp +contextual))

/-- C85: every program in C made of such calls. -/
theorem c85_prog {g p : Bool} {vs : List Nat} {c : Cmd} {σ σ' : St} {o : Out} (h : Prog g p vs c) (hf : Fine σ)
    (hs : ∀ x ∈ vs, x < σ.nv) (hr : Run c σ o σ') : Safe g p vs σ o σ' := by
  have := safe_of_good (prog_good h) (fun _ => rfl) hf (fun x hx => hs x (by simpa using hx)) hr
  simpa [Fl.lk] using this

/-! ### Objects -/

/-- The flags of a program in C++. -/
abbrev cpp (g t p : Bool) : Fl := { lo := g || t, le := true, d := p }

/-- The integers of all objects in scope. -/
def varsOf (os : List Obj) : List Nat := os.flatMap Obj.vars

/-- Objects do not overlap. -/
def Apart (os : List Obj) : Prop := ∀ o ∈ os, ∀ o' ∈ os, o.key = o'.key ∧ o = o' ∨ ∀ x ∈ o.vars, x ∉ o'.vars

theorem ctx_eq (k : Nat) : ctx k = List.range' k 13 := rfl

theorem mem_vars {o : Obj} {x : Nat} : x ∈ o.vars ↔ o.key ≤ x ∧ x < o.key + o.size := by
  rw [Obj.vars, List.mem_range'_1]

theorem obj_ctx {os : List Obj} {o : Obj} (h : o ∈ os) : CtxW (varsOf os) o.key := by
  refine CtxW.of fun x hx => List.mem_flatMap.2 ⟨o, h, mem_vars.2 ?_⟩
  rw [mem_ctx] at hx
  cases o <;> simp only [Obj.key, Obj.size] at hx ⊢ <;> omega

theorem obj_mem {os : List Obj} {o : Obj} {x : Nat} (h : o ∈ os) (hx : o.key ≤ x ∧ x < o.key + o.size) : x ∈ varsOf os :=
  List.mem_flatMap.2 ⟨o, h, mem_vars.2 hx⟩

theorem apart_cons {os : List Obj} {o : Obj} (h : Apart os) (hk : ∀ x ∈ varsOf os, x < o.key) : Apart (o :: os) := by
  have key : ∀ o' ∈ os, ∀ x ∈ o'.vars, x ∉ o.vars := fun o' ho' x hx hx' => by
    have h1 := hk x (List.mem_flatMap.2 ⟨o', ho', hx⟩)
    rw [mem_vars] at hx'
    omega
  intro o1 h1 o2 h2
  rcases List.mem_cons.1 h1 with rfl | h1' <;> rcases List.mem_cons.1 h2 with rfl | h2'
  · exact .inl ⟨rfl, rfl⟩
  · exact .inr fun x hx hx' => key o2 h2' x hx' hx
  · exact .inr fun x hx hx' => key o1 h1' x hx hx'
  · exact h o1 h1' o2 h2'

theorem op_good {g t p : Bool} {os : List Obj} {c : Cmd} (h : Op p os c) (ha : Apart os) : Good (cpp g t p) [] (varsOf os) c := by
  have hlk : (cpp g t p).lk .err = true := by simp [Fl.lk, Out.isErr]
  have hr : ∀ b, (cpp g t p).r b = true → (cpp g t p).lk (.ret b) = true := fun b h => by cases h
  cases h with
  | publicKey hp h => exact writePubkeyPem_good rfl hp (obj_ctx h).r
  | eval h => exact tdpEval_good rfl hlk hr (obj_ctx h)
  | sample h => exact tdpSample_good rfl hlk hr (.inr (obj_ctx h).h0)
  | generate h => exact tdpGenerate_good rfl hlk hr (.inr (obj_ctx h).h0)
  | assign h h' => exact tdpAssign_good (obj_ctx (o := .tdp _) h) (obj_ctx h').r
  | reset h h' => exact tdpReset_good rfl hlk (obj_ctx (o := .tdp _) h) (obj_ctx h').r
  | privateKey hp h => exact writeKeyPem_good rfl hp (obj_ctx (o := .inv _) h).r
  | invert h => exact tdpInvert_good rfl (obj_ctx (o := .inv _) h)
  | invertMult h =>
    exact tdpInvertMult_good rfl hlk hr (obj_ctx (o := .inv _) h) (.inr (obj_mem h (by simp [Obj.key, Obj.size])))
      (.inr (obj_mem h (by simp [Obj.key, Obj.size])))
  | evalPool1 h => exact evalPool_good rfl hlk hr (obj_ctx (o := .pool _ _) h)
  | evalPool h hi =>
    refine evalPool_good rfl hlk hr (CtxW.of fun x hx => obj_mem h ?_)
    rw [mem_ctx, keyAt] at hx
    simp only [Obj.key, Obj.size]
    omega
  | poolAssign h h' =>
    rename_i d n k
    refine poolAssign_good rfl (fun x hx => obj_mem h ?_) fun hne x hx => ⟨.inr (obj_mem h' ?_), fun hx' => ?_⟩
    · rw [mem_keysOf] at hx; simp only [Obj.key, Obj.size]; omega
    · rw [mem_keysOf] at hx; simp only [Obj.key, Obj.size]; omega
    · rw [mem_keysOf] at hx hx'
      rcases ha _ h _ h' with h1 | h1
      · exact hne h1.1
      · refine h1 x (mem_vars.2 ?_) (mem_vars.2 ?_) <;> simp only [Obj.key, Obj.size] <;> omega

theorem tdp_more {k x : Nat} {os : List Obj} : x ∈ varsOf (.tdp k :: os) ↔ x ∈ varsOf os ++ ctx k := by
  simp only [varsOf, List.flatMap_cons, List.mem_append, mem_vars, mem_ctx, Obj.key, Obj.size]
  exact Or.comm

theorem inv_more {k x : Nat} {os : List Obj} : x ∈ varsOf (.inv k :: os) ↔ x ∈ varsOf os ++ (ctx k ++ invOwn k) := by
  simp only [varsOf, List.flatMap_cons, List.mem_append, mem_vars, mem_ctx, Obj.key, Obj.size, invOwn, List.mem_cons,
    List.not_mem_nil, or_false]
  constructor
  · rintro (h | h)
    · right; omega
    · exact .inl h
  · rintro (h | h)
    · exact .inr h
    · left; omega

theorem pool_more {k n x : Nat} {os : List Obj} :
    x ∈ varsOf (.pool k n :: os) ↔ x ∈ varsOf os ++ (ctx k ++ ([k + 13] ++ keysOf k n)) := by
  simp only [varsOf, List.flatMap_cons, List.mem_append, mem_vars, mem_ctx, Obj.key, Obj.size, mem_keysOf, List.mem_cons,
    List.not_mem_nil, or_false]
  constructor
  · rintro (h | h)
    · right; omega
    · exact .inl h
  · rintro (h | h)
    · exact .inr h
    · left; omega

theorem Good.perm {f : Fl} {V W W' : List Nat} {c : Cmd} (h : Good f V W c) (hW : ∀ x, x ∈ W ↔ x ∈ W') : Good f V W' c :=
  h.mono (fun x hx => (hW x).1 hx) (fun _ hx => .inl hx) (fun _ h => h) (fun h => h) (fun h => h) (fun h => h) (fun h => h)

theorem client_good {g t p : Bool} {os : List Obj} {c : Cmd} (h : Client g t p os c) :
    Apart os → Good (cpp g t p) [] (varsOf os) c := by
  have hlk : (cpp g t p).lk .err = true := by simp [Fl.lk, Out.isErr]
  induction h with
  | op h => exact op_good h
  | skip => exact fun _ => Good.skip
  | throw => exact fun _ => Good.fail rfl
  | seq _ _ ih ih' => exact fun ha => (ih ha).seq (ih' ha)
  | alt _ _ ih ih' => exact fun ha => (ih ha).alt (ih' ha)
  | loop _ ih => exact fun ha => (ih ha).loop
  | «catch» ht _ ih =>
    subst ht
    exact fun ha => Good.ign (g := cpp g true p) (fun _ => by simp) (fun _ => by simp) (fun h => h) (fun _ h => h) (ih ha)
  | tdpParse hp _ ih =>
    intro ha
    refine tdpScope_good rfl hlk (fun k hk => tdpParse_good rfl hp CtxW.loc) fun k hk => ?_
    exact (ih k (apart_cons ha fun x hx => hk x (.inr hx))).perm fun x => tdp_more
  | tdpCopy ho _ ih =>
    intro ha
    refine tdpScope_good rfl hlk (fun k hk => tdpCopy_good rfl (obj_ctx ho).r.app CtxW.loc) fun k hk => ?_
    exact (ih k (apart_cons ha fun x hx => hk x (.inr hx))).perm fun x => tdp_more
  | invGen _ ih =>
    intro ha
    refine invScope_good rfl hlk (fun k hk => invGen_good rfl (fun h => by simp [h]) (CtxW.of fun x hx => by simp [hx])
      (by simp [invOwn]) (by simp [invOwn]) (by simp [invOwn])) fun k hk => ?_
    exact (ih k (apart_cons ha fun x hx => hk x (.inr hx))).perm fun x => inv_more
  | invParse hp _ ih =>
    intro ha
    refine invScope_good rfl hlk (fun k hk => invParse_good rfl hp (CtxW.of fun x hx => by simp [hx])
      (by simp [invOwn]) (by simp [invOwn]) (by simp [invOwn])) fun k hk => ?_
    exact (ih k (apart_cons ha fun x hx => hk x (.inr hx))).perm fun x => inv_more
  | poolParse hp hn _ ih =>
    intro ha
    refine poolScope_good rfl hlk (fun k hk => tdpParse_good rfl hp CtxW.loc)
      (fun k hk => poolBody_build rfl hn (CtxW.of fun x hx => by simp [hx]) (by simp)) fun k hk => ?_
    exact (ih k (apart_cons ha fun x hx => hk x (.inr hx))).perm fun x => pool_more
  | poolCopy ho _ ih =>
    intro ha
    rename_i s n _ _ _
    refine poolScope_good rfl hlk (fun k hk => tdpCopy_good rfl (obj_ctx (o := .pool _ _) ho).r.app CtxW.loc)
      (fun k hk => poolCopy_build rfl (by simp) fun x hx => ?_) fun k hk => ?_
    · have : x ∈ varsOf _ := obj_mem ho (by rw [mem_keysOf] at hx; simp only [Obj.key, Obj.size]; omega)
      exact .inr (by simp [this])
    · exact (ih k (apart_cons ha fun x hx => hk x (.inr hx))).perm fun x => pool_more

/-- C85: every program in C++ that uses the objects `os`: no undefined behaviour, the integers of the objects are in
order afterwards, nothing else is changed; when the program succeeds and catches no exceptions, no block is lost; every block that was released was erased, unless PEM is involved. -/
theorem c85_client_partial {g t p : Bool} {os : List Obj} {c : Cmd} {σ σ' : St} {o : Out} (h : Client g t p os c) (ha : Apart os)
    (hf : Fine σ) (hs : ∀ x ∈ varsOf os, x < σ.nv) (hr : Run c σ o σ') :
    Safe (g || t || decide (o ≠ .ok)) p (varsOf os) σ o σ' := by
  have := safe_of_good (client_good h ha) (fun _ => rfl) hf (fun x hx => hs x (by simpa using hx)) hr
  refine ⟨this.ends, this.fine, this.scope, this.others, fun hl => this.lost ?_, this.residue⟩
  simp only [Bool.or_eq_false_iff, decide_eq_false_iff_not, Decidable.not_not] at hl
  obtain ⟨⟨rfl, rfl⟩, rfl⟩ := hl
  rfl

/-- The state at the beginning of a program. -/
def St.start : St := ⟨fun _ => none, 0, fun _ => ⟨0, false, fun _ => 0⟩, 0⟩

/-- C85: a whole program has no undefined behaviour; if it ends without an exception and has caught none, then every
block it has allocated has been released. -/
theorem c85_whole {g t p : Bool} {c : Cmd} {σ : St} {o : Out} (h : Client g t p [] c) (hr : Run c .start o σ) :
    o ≠ .ub ∧ (g = false → t = false → o = .ok → ∀ a, a < σ.nh → (σ.heap a).live = false) := by
  have hf : Fine St.start := ⟨fun x hx => absurd hx (Nat.not_lt_zero x), fun x _ _ _ _ hx => absurd hx (Nat.not_lt_zero x)⟩
  have hs := c85_client_partial h (fun o ho => by cases ho) hf (fun x hx => by cases hx) hr
  refine ⟨?_, ?_⟩
  · rintro rfl
    rcases hs.ends with h | h <;> cases h
  rintro rfl rfl rfl a ha
  cases hl : (σ.heap a).live with
  | false => rfl
  | true =>
    have hnv : σ.nv = 0 := hs.scope
    have := hs.lost rfl a ⟨ha, hl, fun x m hx => by omega⟩
    exact absurd this.1 (Nat.not_lt_zero a)

end Verif.Heap
