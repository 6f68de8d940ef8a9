import Verif.Key.Props

/-!
# How the library uses its keys: traces of key operations per API call

Each public call of HMac, Prf, Prg, Cipher, Prp and Wrapper is modelled by what it does to the key object it owns, in
order, and by the points where it throws for other reasons.  The values computed from the key are modelled elsewhere.
-/

namespace Verif.Key

open Verif

/-- One action of a call. -/
inductive Act where
  | op (o : Op)
  | throw (e : Exc)
  deriving DecidableEq, Repr

/-- Runs the actions of a call; an exception ends it. -/
def exec (N : Nat) (ml : Bool) : St → List Act → St × Res Unit
  | st, [] => (st, .ok ())
  | st, .throw e :: _ => (st, .exc e)
  | st, .op o :: rest =>
    match step N ml st o with
    | none => (st, .ub)
    | some (st', .ok _) => exec N ml st' rest
    | some (st', .exc e) => (st', .exc e)
    | some (st', .ub) => (st', .ub)

/-- Public calls (and the serialization entry points used by `Wrapper`) on an object whose key is key object `i`. -/
inductive Call where
  /-- `HMac::hmac`. -/
  | hmac (outLen : Nat) (inNull outNull : Bool)
  /-- `Prf<NBYTES>::prf` and `derive_key`. -/
  | prf (nb : Nat) (inNull : Bool)
  /-- `Prf/Prg/Cipher/Prp::serialize`. -/
  | serialize
  /-- `Prg::derive(offset, len, out)`; the string version passes a non-null buffer; `derive_key` likewise. -/
  | prgDerive (len : Nat) (outNull : Bool)
  /-- `Prg::duplicate` (the copy is a new key object). -/
  | prgDuplicate
  /-- `Cipher::encrypt`; `refused`: string version with an empty message. -/
  | cipherEncrypt (refused : Bool)
  /-- `Cipher::decrypt` on a ciphertext of length `len`; `tagOk`: the AEAD accepts. -/
  | cipherDecrypt (len : Nat) (tagOk : Bool)
  /-- `Prp::encrypt` (all versions). -/
  | prpEncrypt
  /-- `Prp::decrypt` (all versions). -/
  | prpDecrypt
  /-- `Wrapper::wrap`/`unwrap`, the encryption key; `refused`: the blob is too short; `tagOk`: tag verifies. -/
  | wrapperKey (refused tagOk : Bool)
  deriving DecidableEq, Repr

/-- hmac.hpp 179-249: arguments are checked first; unlock (205), two reads (208, 225), lock (248). -/
def hmacActs (i : Nat) (outLen : Nat) (inNull outNull : Bool) : List Act :=
  if outLen > 64 ∨ inNull = true ∨ outNull = true then [.throw .invalidArgument]
  else [.op (.unlock i), .op (.readData i), .op (.readData i), .op (.lock i)]

/-- The trace of a call. -/
def Call.acts (i : Nat) : Call → List Act
  | .hmac outLen inNull outNull => hmacActs i outLen inNull outNull
  /- prf.hpp 260-305: one HMAC per 64-byte block. -/
  | .prf nb inNull =>
    if inNull then [.throw .invalidArgument]
    else (List.replicate ((nb + 63) / 64) (hmacActs i 64 false false)).flatten
  /- prf.hpp 223-228, prg.cpp 211-216, cipher.cpp 193-198, prp.cpp 294-305. -/
  | .serialize => [.op (.unlock i), .op (.serialize i), .op (.lock i)]
  /- prg.cpp 129-139 and 44-51: the null check comes after `unlock_get()`. -/
  | .prgDerive len outNull =>
    if len = 0 then []
    else if outNull then [.op (.readUnlock i), .throw .invalidArgument, .op (.lock i)]
    else [.op (.readUnlock i), .op (.lock i)]
  /- prg.cpp 200-208. -/
  | .prgDuplicate => [.op (.readUnlock i), .op (.lock i)]
  /- cipher.cpp 61-120. -/
  | .cipherEncrypt refused =>
    if refused then [.throw .invalidArgument]
    else [.op (.unlock i), .op (.readData i), .op (.lock i)]
  /- cipher.cpp 122-191. -/
  | .cipherDecrypt len tagOk =>
    if len < 32 then [.throw .invalidArgument]
    else [.op (.unlock i), .op (.readData i), .op (.lock i)] ++ (if tagOk then [] else [.throw .runtimeError])
  /- prp.cpp 168-199: no `lock()`. -/
  | .prpEncrypt => [.op (.readUnlock i)]
  /- prp.cpp 229-263. -/
  | .prpDecrypt => [.op (.readUnlock i), .op (.lock i)]
  /- wrapper.hpp 235-241 and 251-303. -/
  | .wrapperKey refused tagOk =>
    if refused then [.throw .invalidArgument]
    else [.op (.readUnlock i), .op (.lock i)] ++ (if tagOk then [] else [.throw .runtimeError])

/-- A history of calls, each on some key object. -/
def execCalls (N : Nat) (ml : Bool) (st : St) : List (Nat × Call) → St × List (Res Unit)
  | [] => (st, [])
  | (i, c) :: cs =>
    let (st1, r) := exec N ml st (c.acts i)
    let (st2, rs) := execCalls N ml st1 cs
    (st2, r :: rs)

/-- All secrets are inaccessible: every buffer owned by a key object is on a no-access page. -/
def AtRest (st : St) : Prop :=
  ∀ i o c, st.obj i = some o → o.content = some c → ∃ cell, st.heap[c]? = some cell ∧ cell.prot = .noaccess

/-! ## Lemmas -/

/-- `exec` on the value semantics. -/
def sexec (N : Nat) : Spec.St → List Act → Spec.St × Res Unit
  | st, [] => (st, .ok ())
  | st, .throw e :: _ => (st, .exc e)
  | st, .op o :: rest =>
    match Spec.step N st o with
    | none => (st, .ub)
    | some (st', .ok _) => sexec N st' rest
    | some (st', .exc e) => (st', .exc e)
    | some (st', .ub) => (st', .ub)

/-- Operations that use an existing key object. -/
def useOp (i : Nat) (o : Op) : Prop :=
  o = .unlock i ∨ o = .lock i ∨ o = .readData i ∨ o = .readUnlock i ∨ o = .serialize i

theorem step_none_iff {N : Nat} {st : St} {a : Spec.St} (hs : Sim st a) {i : Nat} {o : Op} (ho : useOp i o) :
    step N true st o = none ↔ Spec.step N a o = none := by
  have := hs.objs i
  rcases ho with h | h | h | h | h <;> subst h <;> simp [step, Spec.step, this]

theorem exec_sim {N : Nat} {i : Nat} (acts : List Act) : ∀ {st : St} {a : Spec.St}, Inv true st → Sim st a →
    (∀ o, Act.op o ∈ acts → useOp i o) →
    (exec N true st acts).2 = (sexec N a acts).2 ∧ Inv true (exec N true st acts).1 ∧
      Sim (exec N true st acts).1 (sexec N a acts).1 := by
  induction acts with
  | nil => intro st a h hs _; exact ⟨rfl, h, hs⟩
  | cons x xs ih =>
    intro st a h hs hu
    cases x with
    | throw e => exact ⟨rfl, h, hs⟩
    | op o =>
      have huo := hu o List.mem_cons_self
      have hpre : o.pre N := by rcases huo with e | e | e | e | e <;> subst e <;> simp [Op.pre]
      have hn := step_none_iff (N := N) hs huo
      cases h1 : step N true st o with
      | none =>
        simp only [exec, sexec, h1, hn.1 h1]
        exact ⟨trivial, h, hs⟩
      | some p =>
        obtain ⟨st1, r⟩ := p
        have hok := step_ok h hpre h1
        obtain ⟨a1, ha1, hs1⟩ := hok.sim rfl a hs
        simp only [exec, sexec, h1, ha1]
        cases r with
        | ok b => exact ih hok.inv hs1 (fun o ho => hu o (List.mem_cons_of_mem _ ho))
        | exc e => exact ⟨rfl, hok.inv, hs1⟩
        | ub => exact ⟨rfl, hok.inv, hs1⟩

theorem acts_use (i : Nat) (c : Call) : ∀ o, Act.op o ∈ c.acts i → useOp i o := by
  intro o ho
  have hh : ∀ l n1 n2, Act.op o ∈ hmacActs i l n1 n2 → useOp i o := by
    intro l n1 n2 h
    unfold hmacActs at h
    split at h
    · simp at h
    · simp at h; unfold useOp; rcases h with h | h | h <;> simp [h]
  cases c with
  | hmac l a b => exact hh _ _ _ ho
  | prf nb n =>
    simp only [Call.acts] at ho
    split at ho
    · simp at ho
    · rw [List.mem_flatten] at ho
      obtain ⟨l, hl, ho⟩ := ho
      rw [(List.mem_replicate.1 hl).2] at ho
      exact hh _ _ _ ho
  | serialize => simp [Call.acts] at ho; unfold useOp; rcases ho with h | h | h <;> simp [h]
  | prgDerive len n =>
    simp only [Call.acts] at ho
    split at ho
    · simp at ho
    · split at ho <;> simp at ho <;> unfold useOp <;> rcases ho with h | h <;> simp [h]
  | prgDuplicate => simp [Call.acts] at ho; unfold useOp; rcases ho with h | h <;> simp [h]
  | cipherEncrypt r =>
    simp only [Call.acts] at ho
    split at ho <;> simp at ho
    unfold useOp; rcases ho with h | h | h <;> simp [h]
  | cipherDecrypt len t =>
    simp only [Call.acts] at ho
    split at ho
    · simp at ho
    · cases t <;> simp at ho <;> unfold useOp <;> rcases ho with h | h | h <;> simp [h]
  | prpEncrypt => simp [Call.acts] at ho; unfold useOp; simp [ho]
  | prpDecrypt => simp [Call.acts] at ho; unfold useOp; rcases ho with h | h <;> simp [h]
  | wrapperKey r t =>
    simp only [Call.acts] at ho
    split at ho
    · simp at ho
    · cases t <;> simp at ho <;> unfold useOp <;> rcases ho with h | h <;> simp [h]

/-- An empty key is not changed by using it. -/
theorem sexec_empty {N : Nat} {i : Nat} {a : Spec.St} {o : Spec.Obj} (ho : Spec.obj a i = some o) (hv : o.value = none)
    (acts : List Act) (hu : ∀ x, Act.op x ∈ acts → useOp i x) :
    (sexec N a acts).1 = a ∧ (sexec N a acts).2 ≠ .ub := by
  induction acts with
  | nil => exact ⟨rfl, by simp [sexec]⟩
  | cons x xs ih =>
    have ih := ih (fun o ho => hu o (List.mem_cons_of_mem _ ho))
    cases x with
    | throw e => exact ⟨rfl, by simp [sexec]⟩
    | op x =>
      rcases hu x List.mem_cons_self with h | h | h | h | h <;> subst h <;>
        simp [sexec, Spec.step, ho, hv, Spec.read, ih]

/-- At rest, in the value semantics. -/
def SRest (a : Spec.St) : Prop := ∀ j o, Spec.obj a j = some o → o.locked = true

theorem sobj_lt {a : Spec.St} {i : Nat} {o : Spec.Obj} (h : Spec.obj a i = some o) : i < a.length := by
  unfold Spec.obj at h
  cases h' : a[i]? with
  | none => rw [h'] at h; cases h
  | some x => exact (List.getElem?_eq_some_iff.1 h').1

theorem step_unlock' {N : Nat} {i : Nat} {a : Spec.St} {v : Bytes} {l : Bool} (ho : Spec.obj a i = some ⟨some v, l⟩) :
    Spec.step N a (.unlock i) = some (a.set i (some ⟨some v, false⟩), .ok []) := by
  simp [Spec.step, ho]
theorem step_lock' {N : Nat} {i : Nat} {a : Spec.St} {v : Bytes} {l : Bool} (ho : Spec.obj a i = some ⟨some v, l⟩) :
    Spec.step N a (.lock i) = some (a.set i (some ⟨some v, true⟩), .ok []) := by
  simp [Spec.step, ho]
theorem step_readData' {N : Nat} {i : Nat} {a : Spec.St} {v : Bytes} (ho : Spec.obj a i = some ⟨some v, false⟩) :
    Spec.step N a (.readData i) = some (a, .ok v) := by
  simp [Spec.step, ho, Spec.read]
theorem step_serialize' {N : Nat} {i : Nat} {a : Spec.St} {v : Bytes} (ho : Spec.obj a i = some ⟨some v, false⟩) :
    Spec.step N a (.serialize i) = some (a, .ok v) := by
  simp [Spec.step, ho, Spec.read]
theorem step_readUnlock' {N : Nat} {i : Nat} {a : Spec.St} {v : Bytes} {l : Bool} (ho : Spec.obj a i = some ⟨some v, l⟩) :
    Spec.step N a (.readUnlock i) = some (a.set i (some ⟨some v, false⟩), .ok v) := by
  simp [Spec.step, ho, Spec.read]

/-- Calls whose traces end with the key locked again. -/
def Call.good : Call → Prop
  | .prpEncrypt => False
  | .prgDerive len outNull => len = 0 ∨ outNull = false
  | _ => True

theorem sexec_cons_ok {N : Nat} {a a' : Spec.St} {o : Op} {b : Bytes} {rest : List Act}
    (h : Spec.step N a o = some (a', .ok b)) : sexec N a (.op o :: rest) = sexec N a' rest := by
  simp only [sexec, h]

theorem sexec_good {N : Nat} {i : Nat} {a : Spec.St} {v : Bytes} {l : Bool} (ho : Spec.obj a i = some ⟨some v, l⟩) (hl : l = true)
    (c : Call) (hg : c.good) : (sexec N a (c.acts i)).1 = a ∧ (sexec N a (c.acts i)).2 ≠ .ub := by
  subst hl
  have hlt := sobj_lt ho
  have ho1 : Spec.obj (a.set i (some ⟨some v, false⟩)) i = some ⟨some v, false⟩ := by
    rw [sobj_set _ _ _ _ hlt, if_pos rfl]
  have hback : (a.set i (some ⟨some v, false⟩)).set i (some ⟨some v, true⟩) = a := by
    rw [List.set_set]; exact set_same ho
  have u := step_unlock' (N := N) ho
  have k := step_lock' (N := N) ho1
  have d := step_readData' (N := N) ho1
  have z := step_serialize' (N := N) ho1
  have g := step_readUnlock' (N := N) ho
  have fin1 : ∀ rest, sexec N a (.op (.unlock i) :: .op (.readData i) :: .op (.lock i) :: rest) = sexec N a rest := by
    intro rest
    rw [sexec_cons_ok u, sexec_cons_ok d, sexec_cons_ok k, hback]
  have fin2 : ∀ rest, sexec N a (.op (.readUnlock i) :: .op (.lock i) :: rest) = sexec N a rest := by
    intro rest
    rw [sexec_cons_ok g, sexec_cons_ok k, hback]
  have hm : ∀ rest, sexec N a (hmacActs i 64 false false ++ rest) = sexec N a rest := by
    intro rest
    have : hmacActs i 64 false false = [.op (.unlock i), .op (.readData i), .op (.readData i), .op (.lock i)] := by
      unfold hmacActs; rw [if_neg (by simp)]
    rw [this]
    simp only [List.cons_append, List.nil_append]
    rw [sexec_cons_ok u, sexec_cons_ok d, sexec_cons_ok d, sexec_cons_ok k, hback]
  cases c with
  | hmac len n1 n2 =>
    simp only [Call.acts]
    unfold hmacActs
    split
    · exact ⟨rfl, by simp [sexec]⟩
    · rw [sexec_cons_ok u, sexec_cons_ok d, sexec_cons_ok d, sexec_cons_ok k, hback]
      exact ⟨rfl, by simp [sexec]⟩
  | prf nb n =>
    simp only [Call.acts]
    split
    · exact ⟨rfl, by simp [sexec]⟩
    · generalize (nb + 63) / 64 = m
      induction m with
      | zero => exact ⟨rfl, by simp [sexec]⟩
      | succ m ih =>
        rw [List.replicate_succ, List.flatten_cons, hm]
        exact ih
  | serialize =>
    simp only [Call.acts]
    rw [sexec_cons_ok u, sexec_cons_ok z, sexec_cons_ok k, hback]
    exact ⟨rfl, by simp [sexec]⟩
  | prgDerive len n =>
    simp only [Call.acts]
    split
    · exact ⟨rfl, by simp [sexec]⟩
    · rename_i hlen
      have : n = false := by rcases hg with h | h; exact absurd h hlen; exact h
      subst this
      simp only [Bool.false_eq_true, if_false]
      rw [fin2]; exact ⟨rfl, by simp [sexec]⟩
  | prgDuplicate =>
    simp only [Call.acts]
    rw [fin2]; exact ⟨rfl, by simp [sexec]⟩
  | cipherEncrypt r =>
    simp only [Call.acts]
    split
    · exact ⟨rfl, by simp [sexec]⟩
    · rw [fin1]; exact ⟨rfl, by simp [sexec]⟩
  | cipherDecrypt len t =>
    simp only [Call.acts]
    split
    · exact ⟨rfl, by simp [sexec]⟩
    · simp only [List.cons_append, List.nil_append]
      rw [fin1]
      cases t <;> exact ⟨rfl, by simp [sexec]⟩
  | prpEncrypt => exact absurd hg id
  | prpDecrypt =>
    simp only [Call.acts]
    rw [fin2]; exact ⟨rfl, by simp [sexec]⟩
  | wrapperKey r t =>
    simp only [Call.acts]
    split
    · exact ⟨rfl, by simp [sexec]⟩
    · simp only [List.cons_append, List.nil_append]
      rw [fin2]
      cases t <;> exact ⟨rfl, by simp [sexec]⟩

theorem atRest_iff {st : St} {a : Spec.St} (h : Inv true st) (hs : Sim st a) : AtRest st ↔ SRest a := by
  constructor
  · intro hr j o ho
    rw [hs.objs j] at ho
    cases hj : st.obj j with
    | none => rw [hj] at ho; cases ho
    | some oj =>
      rw [hj] at ho
      simp only [Option.map_some, Option.some.injEq] at ho
      subst ho
      cases hc : oj.content with
      | none => exact h.emp j oj hj hc
      | some c =>
        obtain ⟨cell, h1, h2, h3⟩ := h.own j oj c hj hc
        obtain ⟨cell', h4, h5⟩ := hr j oj c hj hc
        rw [h1] at h4; injection h4 with h4; subst h4
        simp only [ProtOk, if_true] at h3
        exact h3.2 h5
  · intro hr i o c ho hc
    obtain ⟨cell, h1, h2, h3⟩ := h.own i o c ho hc
    refine ⟨cell, h1, ?_⟩
    simp only [ProtOk, if_true] at h3
    apply h3.1
    exact hr i (absObj st.heap o) (sobj_some hs ho)

theorem reach_sim {N : Nat} {st : St} (h : Reach N true st) : ∃ a, Sim st a := by
  obtain ⟨ops, rs, hpre, hr⟩ := h
  obtain ⟨a, _, hs, _⟩ := run_sim ops (inv_init true) sim_init hpre hr
  exact ⟨a, hs⟩

theorem calls_rest {N : Nat} (cs : List (Nat × Call)) : ∀ {st : St} {a : Spec.St}, Inv true st → Sim st a → SRest a →
    (∀ ic ∈ cs, ic.2.good ∧ (Spec.obj a ic.1).isSome) →
    Inv true (execCalls N true st cs).1 ∧ Sim (execCalls N true st cs).1 a ∧ ∀ r ∈ (execCalls N true st cs).2, r ≠ .ub := by
  induction cs with
  | nil => intro st a h hs hr _; exact ⟨h, hs, by simp [execCalls]⟩
  | cons ic cs ih =>
    intro st a h hs hr hg
    obtain ⟨i, c⟩ := ic
    obtain ⟨hg1, hsome⟩ := hg (i, c) List.mem_cons_self
    obtain ⟨e1, e2, e3⟩ := exec_sim (N := N) (c.acts i) h hs (acts_use i c)
    have key : (sexec N a (c.acts i)).1 = a ∧ (sexec N a (c.acts i)).2 ≠ .ub := by
      cases ho : Spec.obj a i with
      | none => simp only [ho] at hsome; cases hsome
      | some o =>
        obtain ⟨v, l⟩ := o
        cases v with
        | none => exact sexec_empty ho rfl _ (acts_use i c)
        | some v => exact sexec_good ho (hr i _ ho) c hg1
    rw [key.1] at e3
    obtain ⟨i1, i2, i3⟩ := ih e2 e3 hr (fun x hx => hg x (List.mem_cons_of_mem _ hx))
    refine ⟨i1, i2, ?_⟩
    intro r hr
    simp only [execCalls, List.mem_cons] at hr
    rcases hr with hr | hr
    · rw [hr, e1]; exact key.2
    · exact i3 r hr

/-! ## C22 -/

/-- C22: after any history of calls (also refused or failing ones) every secret is again on a no-access page, and no
call touches memory it must not touch.
Partial: without `Prp::encrypt` and without `Prg::derive` into a null buffer, which leave the key readable; see
`c22_prp_encrypt_false`, `c22_prg_null_false`. -/
theorem c22_at_rest_partial {N : Nat} {st : St} (hre : Reach N true st) (hrest : AtRest st) (cs : List (Nat × Call))
    (hcs : ∀ ic ∈ cs, ic.2.good ∧ (st.obj ic.1).isSome) :
    AtRest (execCalls N true st cs).1 ∧ ∀ r ∈ (execCalls N true st cs).2, r ≠ .ub := by
  obtain ⟨a, hs⟩ := reach_sim hre
  have hinv := reach_inv hre
  obtain ⟨h1, h2, h3⟩ := calls_rest (N := N) cs hinv hs ((atRest_iff hinv hs).1 hrest) (by
    intro ic hic
    refine ⟨(hcs ic hic).1, ?_⟩
    rw [hs.objs]
    have := (hcs ic hic).2
    cases h : st.obj ic.1 with
    | none => rw [h] at this; cases this
    | some o => rfl)
  exact ⟨(atRest_iff h1 h2).2 ((atRest_iff hinv hs).1 hrest), h3⟩

/-- A fresh state with two keys, one of them moved away. -/
def twoKeys : St := ⟨[⟨[1, 2], .noaccess, 0⟩, ⟨[3, 4], .noaccess, 0⟩], [some ⟨some 0, true⟩, some ⟨none, true⟩, some ⟨some 1, true⟩]⟩

theorem twoKeys_reach : Reach 2 true twoKeys :=
  ⟨[.newFrom (some [1, 2]), .newFrom (some [3, 4]), .moveCtor 1], _, by simp [Op.pre], rfl⟩

theorem twoKeys_rest : AtRest twoKeys := by
  intro i o c ho hc
  have hi : i < 3 := obj_lt ho
  have : i = 0 ∨ i = 1 ∨ i = 2 := by omega
  rcases this with h | h | h <;> subst h <;> simp [twoKeys, St.obj] at ho <;> subst ho
  · simp at hc; subst hc; exact ⟨_, rfl, rfl⟩
  · cases hc
  · simp at hc; subst hc; exact ⟨_, rfl, rfl⟩

example : AtRest (execCalls 2 true twoKeys
    [(0, .hmac 65 false false), (0, .prf 130 false), (1, .prf 10 false), (2, .cipherDecrypt 40 false), (2, .serialize),
     (1, .prgDerive 5 false)]).1 :=
  (c22_at_rest_partial twoKeys_reach twoKeys_rest _ (by
    intro ic hic
    simp only [List.mem_cons, List.not_mem_nil, or_false] at hic
    rcases hic with h | h | h | h | h | h <;> subst h <;> simp [Call.good, twoKeys, St.obj])).1

/-- C22 is false for `Prp::encrypt`: the context stays readable after the call. -/
theorem c22_prp_encrypt_false :
    ∃ st : St, Reach 2 true st ∧ AtRest st ∧ ¬ AtRest (execCalls 2 true st [(0, .prpEncrypt)]).1 := by
  refine ⟨twoKeys, twoKeys_reach, twoKeys_rest, ?_⟩
  intro h
  obtain ⟨cell, h1, h2⟩ := h 0 ⟨some 0, false⟩ 0 (by rfl) rfl
  have : (execCalls 2 true twoKeys [(0, .prpEncrypt)]).1.heap[0]? = some ⟨[1, 2], .ro, 0⟩ := by decide
  rw [this] at h1; injection h1 with h1; subst h1; cases h2

/-- C22 is false for a refused `Prg::derive` (null output buffer): the call throws and leaves the key readable. -/
theorem c22_prg_null_false :
    ∃ st : St, Reach 2 true st ∧ AtRest st ∧ (execCalls 2 true st [(0, .prgDerive 1 true)]).2 = [.exc .invalidArgument] ∧
      ¬ AtRest (execCalls 2 true st [(0, .prgDerive 1 true)]).1 := by
  refine ⟨twoKeys, twoKeys_reach, twoKeys_rest, by decide, ?_⟩
  intro h
  obtain ⟨cell, h1, h2⟩ := h 0 ⟨some 0, false⟩ 0 (by rfl) rfl
  have : (execCalls 2 true twoKeys [(0, .prgDerive 1 true)]).1.heap[0]? = some ⟨[1, 2], .ro, 0⟩ := by decide
  rw [this] at h1; injection h1 with h1; subst h1; cases h2

/-! ## C59: several threads -/

/-- Outcomes of the operations on key object `i` in a schedule. -/
def outcomesOf (i : Nat) (ops : List Op) (rs : List (Res Bytes)) (target : Op → Option Nat) : List (Res Bytes) :=
  ((ops.zip rs).filter fun p => target p.1 = some i).map (·.2)

/-- The key object an operation uses. -/
def target : Op → Option Nat
  | .unlock i | .lock i | .readData i | .readUnlock i | .serialize i => some i
  | _ => none

/-- Steps on other key objects do not change what is seen of object `i`. -/
theorem sstep_other {N : Nat} {a a' : Spec.St} {o : Op} {r : Res Bytes} {i j : Nat} (ht : target o = some j) (hij : j ≠ i)
    (h : Spec.step N a o = some (a', r)) : Spec.obj a' i = Spec.obj a i := by
  have hset : ∀ x : Option Spec.Obj, Spec.obj (a.set j x) i = Spec.obj a i := by
    intro x
    unfold Spec.obj
    rw [List.getElem?_set_ne hij]
  cases o <;> simp only [target] at ht <;> try (cases ht; done)
  all_goals
    injection ht with ht; subst ht
    simp only [Spec.step, Option.map_eq_some_iff, Prod.mk.injEq] at h
    obtain ⟨o, _, h, _⟩ := h
    subst h
    first
      | rfl
      | (split
         · exact hset _
         · rfl)

/-- A use of object `i` depends only on object `i`. -/
theorem sstep_same {N : Nat} {a b a' : Spec.St} {o : Op} {r : Res Bytes} {i : Nat} (ht : target o = some i)
    (hab : Spec.obj a i = Spec.obj b i) (h : Spec.step N a o = some (a', r)) :
    ∃ b', Spec.step N b o = some (b', r) ∧ Spec.obj a' i = Spec.obj b' i := by
  have hlt : ∀ {o}, Spec.obj a i = some o → ∀ x : Option Spec.Obj, Spec.obj (a.set i x) i = Spec.obj (b.set i x) i := by
    intro o ho x
    rw [sobj_set _ _ _ _ (sobj_lt ho), sobj_set _ _ _ _ (sobj_lt (hab ▸ ho)), if_pos rfl, if_pos rfl]
  cases o <;> simp only [target] at ht <;> try (cases ht; done)
  all_goals
    injection ht with ht; subst ht
    simp only [Spec.step, Option.map_eq_some_iff, Prod.mk.injEq] at h ⊢
    obtain ⟨o, ho, h, hr⟩ := h
    first
      | exact ⟨b, ⟨o, hab ▸ ho, rfl, hr⟩, by rw [← h]; exact hab⟩
      | (refine ⟨_, ⟨o, hab ▸ ho, rfl, hr⟩, ?_⟩
         rw [← h]
         split
         · exact hlt ho _
         · exact hab)

theorem srun_disjoint {N : Nat} {i : Nat} (ops : List Op) : ∀ {a b a' : Spec.St} {rs : List (Res Bytes)},
    (∀ o ∈ ops, (target o).isSome) → Spec.obj a i = Spec.obj b i → Spec.run N a ops = some (a', rs) →
    ∃ b', Spec.run N b (ops.filter fun o => target o = some i) = some (b', outcomesOf i ops rs target) ∧
      Spec.obj a' i = Spec.obj b' i := by
  induction ops with
  | nil =>
    intro a b a' rs _ hab h
    simp only [Spec.run, Option.some.injEq, Prod.mk.injEq] at h
    obtain ⟨rfl, rfl⟩ := h
    exact ⟨b, rfl, hab⟩
  | cons o ops ih =>
    intro a b a' rs ht hab h
    simp only [Spec.run] at h
    cases h1 : Spec.step N a o with
    | none => rw [h1] at h; cases h
    | some x =>
      obtain ⟨a1, r1⟩ := x
      rw [h1] at h
      simp only at h
      cases h2 : Spec.run N a1 ops with
      | none => rw [h2] at h; cases h
      | some y =>
        obtain ⟨a2, rs2⟩ := y
        rw [h2] at h
        simp only [Option.some.injEq, Prod.mk.injEq] at h
        obtain ⟨rfl, rfl⟩ := h
        have ht' : ∀ o ∈ ops, (target o).isSome := fun o ho => ht o (List.mem_cons_of_mem _ ho)
        by_cases hi : target o = some i
        · obtain ⟨b1, hb1, hab1⟩ := sstep_same hi hab h1
          obtain ⟨b2, hb2, hab2⟩ := ih ht' hab1 h2
          refine ⟨b2, ?_, hab2⟩
          rw [List.filter_cons_of_pos (by simpa using hi)]
          simp only [Spec.run, hb1, hb2, outcomesOf, List.zip_cons_cons]
          rw [List.filter_cons_of_pos (by simpa using hi)]
          rfl
        · have hs := ht o List.mem_cons_self
          cases hto : target o with
          | none => rw [hto] at hs; cases hs
          | some j =>
            have hji : j ≠ i := by intro e; subst e; exact hi hto
            have hab1 : Spec.obj a1 i = Spec.obj b i := by rw [sstep_other hto hji h1, hab]
            obtain ⟨b2, hb2, hab2⟩ := ih ht' hab1 h2
            refine ⟨b2, ?_, hab2⟩
            rw [List.filter_cons_of_neg (by simpa using hi), hb2]
            simp only [outcomesOf, List.zip_cons_cons]
            rw [List.filter_cons_of_neg (by simpa using hi)]

/-- C59: threads that use different key objects do not disturb each other: in every interleaving of uses of keys, the
outcomes of the operations on key `i` are those of running only these operations.
Partial: nothing is guaranteed for threads sharing one object, see `c59_shared_false`. -/
theorem c59_disjoint_partial {N : Nat} {st st1 : St} (hre : Reach N true st) {ops : List Op} {rs : List (Res Bytes)}
    (hops : ∀ o ∈ ops, (target o).isSome) (hr : run N true st ops = some (st1, rs)) (i : Nat)
    {st2 : St} {rs2 : List (Res Bytes)} (hr2 : run N true st (ops.filter fun o => target o = some i) = some (st2, rs2)) :
    rs2 = outcomesOf i ops rs target := by
  obtain ⟨a, hs⟩ := reach_sim hre
  have hinv := reach_inv hre
  have hp : ∀ o ∈ ops, o.pre N := by
    intro o ho
    have := hops o ho
    cases o <;> simp [target] at this <;> simp [Op.pre]
  obtain ⟨a1, h1, _, _⟩ := run_sim ops hinv hs hp hr
  obtain ⟨a2, h2, _, _⟩ := run_sim _ hinv hs (fun o ho => hp o (List.mem_filter.1 ho).1) hr2
  obtain ⟨b, h3, _⟩ := srun_disjoint (i := i) ops hops rfl h1
  rw [h2] at h3
  simp only [Option.some.injEq, Prod.mk.injEq] at h3
  exact h3.2

example : ∃ st1 rs st2 rs2,
    run 2 true twoKeys [.unlock 0, .unlock 2, .readData 2, .lock 2, .readData 0, .lock 0] = some (st1, rs) ∧
    run 2 true twoKeys [.unlock 0, .readData 0, .lock 0] = some (st2, rs2) ∧ rs2 = [.ok [], .ok [1, 2], .ok []] :=
  ⟨_, _, _, _, rfl, rfl, rfl⟩

/-- The two threads of `c59_shared_false`: each runs the key operations of one PRF evaluation (unlock, take the pointer
with `data()`, read through it, lock) on the same object; `getData` only tests the flag and returns the pointer. -/
inductive Micro where
  | unlock | getData | readPtr | lock
  deriving DecidableEq, Repr

/-- One thread step on key object 0: hmac.hpp 205, 208 (call of `data()`, then the `memcpy`), 248. -/
def micro (st : St) : Micro → Res St
  | .unlock => match st.obj 0 with
    | some o => unlockObj true st 0 o
    | none => .ub
  | .getData => match st.obj 0 with
    | some o => if isLocked true o then .exc .runtimeError else .ok st
    | none => .ub
  | .readPtr => match st.obj 0 with
    | some o => (fun _ => st) <$> st.deref o.content
    | none => .ub
  | .lock => match st.obj 0 with
    | some o => lockObj true st 0 o
    | none => .ub

/-- A schedule: at each point one of the two threads (`false`/`true`) makes its next step. -/
def schedule (st : St) : List Micro → List Micro → List Bool → Res St
  | m :: t0, t1, false :: s => micro st m >>= fun st => schedule st t0 t1 s
  | t0, m :: t1, true :: s => micro st m >>= fun st => schedule st t0 t1 s
  | _, _, _ => .ok st

/-- One evaluation. -/
def evalSteps : List Micro := [.unlock, .getData, .readPtr, .lock]

/-- C59 is false for a shared object: two threads evaluating the same (const) object can fault, or one of them can get a
spurious exception, while running one after the other both succeed. -/
theorem c59_shared_false :
    schedule twoKeys evalSteps evalSteps [false, true, true, false, false, false, true] = .ub ∧
    schedule twoKeys evalSteps evalSteps [false, true, false, false, false, true] = .exc .runtimeError ∧
    schedule twoKeys evalSteps evalSteps [false, false, false, false, true, true, true, true] = .ok twoKeys := by
  refine ⟨by decide, by decide, by decide⟩

end Verif.Key
