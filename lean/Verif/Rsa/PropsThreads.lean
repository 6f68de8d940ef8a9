import Verif.Rsa.Threads
import Verif.Rsa.Props

/-!
# C76: threads that share a trapdoor permutation

`Order.Ok` says that the pointer is the last field stored when a cache is filled.
-/

namespace Verif.Rsa.Threads

open Verif Verif.Bignum
open Verif.Tdp (msgSize exKey exMsg exMsg_msg exPriv)

/-! ## Specification -/

/-- The location a thread is about to write, if its next access is a write. -/
def writes {α : Type} : Prog α → Option Loc
  | .write l _ _ => some l
  | _ => none

/-- The location of the next access. -/
def next {α : Type} : Prog α → Option Loc
  | .ret _ => none
  | .read l _ => some l
  | .write l _ _ => some l

/-- Two threads are about to access the same location, and one of them writes. -/
def Racy {α : Type} (x : Cfg α) : Prop :=
  ∃ (i j : Nat) (p q : Prog α) (l : Loc), i ≠ j ∧ x.threads[i]? = some p ∧ x.threads[j]? = some q ∧ writes p = some l ∧ next q = some l

/-- The methods without blinding. -/
inductive Call
  | eval (m : Bytes)
  | mult (m : Bytes) (order : Nat)

def prog (o : Order) (v : Inv) : Call → Prog (Res Bytes)
  | .eval m => evalProg o v.ctx m
  | .mult m k => multProg o v m k

/-- The result of the method on an object that no other thread uses. -/
def result (v : Inv) : Call → Res Bytes
  | .eval m => (evalArray v.ctx m).1
  | .mult m k => (invertMult v m k).1

def toOp : Call → Op
  | .eval m => .eval m
  | .mult m k => .invertMult m k

/-- An object and the threads that have called its methods. -/
def start (o : Order) (v : Inv) (calls : List Call) : Cfg (Res Bytes) := ⟨Mem.of v.ctx, calls.map (prog o v)⟩

/-! ## Results -/

theorem start_ok {o : Order} (ho : o.Ok) (v : Inv) (calls : List Call) : AllOk (I v.ctx) (le v.ctx) (calls.map (result v)) (start o v calls) := by
  refine ⟨I_of _, by simp [start], fun i p r hp hr => ?_⟩
  simp only [start, List.getElem?_map, Option.map_eq_some_iff] at hp hr
  obtain ⟨a, ha, rfl⟩ := hp
  obtain ⟨b, hb, rfl⟩ := hr
  rw [ha] at hb
  cases hb
  cases a with
  | eval m => exact evalProg_ok ho m _
  | mult m k => exact multProg_ok ho m k _

/-- **C76**: whatever the interleaving of any number of calls of `eval` and `invert_mult` on one object, with its caches empty or filled, every call that
    returns gives the result it gives on an object of its own. -/
theorem c76_results {o : Order} (ho : o.Ok) (v : Inv) (calls : List Call) (sched : List Nat) (i : Nat) (r : Res Bytes)
    (h : ((start o v calls).exec sched).threads[i]? = some (.ret r)) : ∃ a, calls[i]? = some a ∧ r = result v a := by
  have := finished (exec_ok (rely _) sched (start_ok ho v calls)).1 h
  simp only [List.getElem?_map, Option.map_eq_some_iff] at this
  obtain ⟨a, h1, h2⟩ := this
  exact ⟨a, h1, h2.symm⟩

/-- **C76**: in terms of the mathematics: evaluation is `m ^ E mod N`, `invert_mult` takes roots. -/
theorem c76_values {o : Order} (ho : o.Ok) {v : Inv} {s : Tdp.Priv} (hv : Ready v s) (calls : List Call) (hc : ∀ a ∈ calls, (toOp a).Ok) (sched : List Nat) (i : Nat)
    (r : Res Bytes) (h : ((start o v calls).exec sched).threads[i]? = some (.ret r)) :
    ∃ a, calls[i]? = some a ∧ Spec (abs v.ctx).N (abs v.ctx).E (toOp a) r := by
  obtain ⟨a, h1, h2⟩ := c76_results ho v calls sched i r h
  refine ⟨a, h1, ?_⟩
  have hop := hc a (List.mem_of_getElem? h1)
  subst h2
  cases a with
  | eval m =>
    obtain ⟨RN, r1, r2, r3⟩ := evalArray_run hv.good.ctx (inp := m) hop
    obtain ⟨y, _, y2, y3, y4⟩ := Tdp.c37_eval hv.key (m := m) hop
    exact ⟨y, by show (evalArray v.ctx m).1 = _; rw [r3, y2], y3.1, y4⟩
  | mult m k =>
    obtain ⟨RP, RQ, r1, r2, r3⟩ := invertMult_run hv.good (inp := m) hop k
    show Spec _ _ (.invertMult m k) (invertMult v m k).1
    rw [r3]
    simp only [Spec]
    by_cases h0 : k = 0
    · rw [if_pos h0]
      unfold Tdp.invertMult
      rw [if_pos h0]
    · rw [if_neg h0]
      obtain ⟨x, x1, x2, x3⟩ := Tdp.invertMult_eq hv.key m k h0
      exact ⟨x, x1, x2.1, x2.2, x3⟩

/-! ## Progress -/

theorem store_within (s : Slot) (R : Mpi) (fs : List Field) : Within fs.length (store s R fs) := by
  induction fs with
  | nil => exact .ret _ _
  | cons f fs ih => cases f <;> exact .write ih

theorem load_within (s : Slot) (fs : List Field) : ∀ r, Within fs.length (load s fs r) := by
  induction fs with
  | nil => intro r; exact .ret _ _
  | cons f fs ih => intro r; cases f <;> exact .read fun v => ih _

theorem expProg_within (o : Order) (s : Slot) (X : Mpi) (A : Arg) (E N : Mpi) : Within (o.st.length + o.ld.length + 2) (expProg o s X A E N) := by
  unfold expProg
  cases expPre X A E N with
  | err e => exact .ret _ _
  | ub => exact .ret _ _
  | ok t =>
    refine Within.bind (n := o.st.length + o.ld.length + 1) (k := 1) (.read fun p => ?_) fun R => .read fun _ => .ret _ _
    show Within _ (if (show List Nat from p) = [] then _ else _)
    split
    · cases freshRR N with
      | err e => exact .ret _ _
      | ub => exact .ret _ _
      | ok R => exact (Within.bind (k := 0) (store_within s R o.st) fun _ => .ret _ _).mono (by omega)
    · exact (Within.bind (k := 0) (load_within s o.ld _) fun _ => .ret _ _).mono (by omega)

theorem prog_within (o : Order) (v : Inv) (a : Call) : Within (2 * (o.st.length + o.ld.length + 2)) (prog o v a) := by
  cases a with
  | eval m =>
    show Within _ (evalProg o v.ctx m)
    unfold evalProg
    split
    · exact .ret _ _
    · split
      · exact (Within.bind (k := 0) (expProg_within o .N _ _ _ _) fun _ => .ret _ _).mono (by omega)
      · exact .ret _ _
      · exact .ret _ _
  | mult m k =>
    show Within _ (multProg o v m k)
    unfold multProg
    split
    · exact .ret _ _
    split
    · exact .ret _ _
    split
    · refine (Within.bind (n := 2 * (o.st.length + o.ld.length + 2)) (k := 0) ?_ fun _ => .ret _ _).mono (by omega)
      refine (Within.bind (expProg_within o .P _ _ _ _) (k := o.st.length + o.ld.length + 2) fun a => ?_).mono (by omega)
      cases a with
      | err e => exact .ret _ _
      | ub => exact .ret _ _
      | ok T1 => exact (Within.bind (k := 0) (expProg_within o .Q _ _ _ _) fun _ => .ret _ _).mono (by omega)
    · exact .ret _ _
    · exact .ret _ _

/-- **C76**: no call waits for another: it returns after a fixed number of its own accesses (16 when each copy has three fields). -/
theorem c76_returns (o : Order) (v : Inv) (calls : List Call) (sched : List Nat) {i : Nat} (hi : i < calls.length)
    (hs : 2 * (o.st.length + o.ld.length + 2) ≤ sched.count i) : ∃ r, ((start o v calls).exec sched).threads[i]? = some (.ret r) := by
  refine exec_within sched (p := prog o v calls[i]) ?_ (prog_within o v _) hs
  simp [start, hi]

/-! ## Objects whose caches are filled -/

/-- `p` only reads, in the memory `m`. -/
inductive ReadOnly {α : Type} (m : Mem) : Prog α → Prop
  | ret (a : α) : ReadOnly m (.ret a)
  | read {l : Loc} {k : Val l → Prog α} (h : ReadOnly m (k (m.get l))) : ReadOnly m (.read l k)

theorem ReadOnly.bind {α β : Type} {m : Mem} {p : Prog α} {f : α → Prog β} (h : ReadOnly m p) (hf : ∀ a, ReadOnly m (f a)) : ReadOnly m (p >>= f) := by
  induction h with
  | ret a => exact hf a
  | read h ih => exact .read ih

theorem exec_readOnly {α : Type} {m : Mem} (sched : List Nat) : ∀ {x : Cfg α}, x.mem = m → (∀ p ∈ x.threads, ReadOnly m p) →
    (x.exec sched).mem = m ∧ ∀ p ∈ (x.exec sched).threads, ReadOnly m p := by
  induction sched with
  | nil => intro x h1 h2; exact ⟨h1, h2⟩
  | cons i s ih =>
    intro x h1 h2
    refine ih (x := x.step i) ?_ ?_
    · unfold Cfg.step
      cases hi : x.threads[i]? with
      | none => exact h1
      | some p =>
        have := h2 p (List.mem_of_getElem? hi)
        cases this <;> exact h1
    · unfold Cfg.step
      cases hi : x.threads[i]? with
      | none => exact h2
      | some p =>
        have := h2 p (List.mem_of_getElem? hi)
        cases this with
        | ret a => exact h2
        | read h =>
          intro q hq
          rcases List.mem_or_eq_of_mem_set hq with h' | rfl
          · exact h2 q h'
          · rw [h1]; exact h

theorem load_readOnly (m : Mem) (s : Slot) (fs : List Field) : ∀ r, ReadOnly m (load s fs r) := by
  induction fs with
  | nil => intro r; exact .ret _
  | cons f fs ih => intro r; cases f <;> exact .read (ih _)

theorem expProg_readOnly (o : Order) {m : Mem} {s : Slot} (h : m.ptr s ≠ []) (X : Mpi) (A : Arg) (E N : Mpi) : ReadOnly m (expProg o s X A E N) := by
  unfold expProg
  cases expPre X A E N with
  | err e => exact .ret _
  | ub => exact .ret _
  | ok t =>
    refine ReadOnly.bind (.read ?_) fun R => .read (.ret _)
    show ReadOnly m (if m.ptr s = [] then _ else _)
    rw [if_neg h]
    exact (load_readOnly m s o.ld _).bind fun r => .ret _

/-- The caches that a call uses are filled. -/
def Filled (v : Inv) : Call → Prop
  | .eval _ => v.ctx.RN.p ≠ []
  | .mult _ _ => v.ctx.RP.p ≠ [] ∧ v.ctx.RQ.p ≠ []

theorem prog_readOnly (o : Order) (v : Inv) (a : Call) (h : Filled v a) : ReadOnly (Mem.of v.ctx) (prog o v a) := by
  cases a with
  | eval m =>
    show ReadOnly _ (evalProg o v.ctx m)
    unfold evalProg
    split
    · exact .ret _
    · split
      · exact (expProg_readOnly o (m := Mem.of v.ctx) (s := .N) h _ _ _ _).bind fun _ => .ret _
      · exact .ret _
      · exact .ret _
  | mult m k =>
    show ReadOnly _ (multProg o v m k)
    unfold multProg
    split
    · exact .ret _
    split
    · exact .ret _
    split
    · refine ReadOnly.bind ((expProg_readOnly o (m := Mem.of v.ctx) (s := .P) h.1 _ _ _ _).bind fun a => ?_) fun _ => .ret _
      cases a with
      | err e => exact .ret _
      | ub => exact .ret _
      | ok T1 => exact (expProg_readOnly o (m := Mem.of v.ctx) (s := .Q) h.2 _ _ _ _).bind fun _ => .ret _
    · exact .ret _
    · exact .ret _

/-- **C76**: once the caches are filled (by one call of each method), the calls change nothing, and there is no data race, whatever the orders of the
    copies. -/
theorem c76_no_race (o : Order) (v : Inv) (calls : List Call) (h : ∀ a ∈ calls, Filled v a) (sched : List Nat) :
    ((start o v calls).exec sched).mem = Mem.of v.ctx ∧ ¬ Racy ((start o v calls).exec sched) := by
  obtain ⟨h1, h2⟩ := exec_readOnly (m := Mem.of v.ctx) sched (x := start o v calls) rfl (by
    intro p hp
    simp only [start, List.mem_map] at hp
    obtain ⟨a, ha, rfl⟩ := hp
    exact prog_readOnly o v a (h a ha))
  refine ⟨h1, ?_⟩
  rintro ⟨i, j, p, q, l, -, hp, -, hw, -⟩
  have := h2 p (List.mem_of_getElem? hp)
  cases this <;> cases hw

theorem exp_fills {N M X E : Mpi} {A : Arg} (hN : Num 300 N) (hN0 : 0 < N.mag) (hM : CacheOk N (some M)) {r : Mpi × Option Mpi}
    (h : expMod X A E N (some M) = .ok r) : (r.2.getD .null).p ≠ [] := by
  obtain ⟨RR, rr', q1, -, -, q2, -, q3⟩ := getRR_spec hN.wf (by rw [toInt_of_neg_false hN.pos]; exact_mod_cast hN0) (le_trans hN.len (by omega)) hM
  rw [expMod_split, q1] at h
  cases ht : expPre X A E N with
  | err e => rw [ht] at h; cases h
  | ub => rw [ht] at h; cases h
  | ok t =>
    rw [ht, Out.bind_ok, Out.bind_ok] at h
    cases hp : expPost E N t (RR, rr').1 with
    | err e => rw [hp] at h; cases h
    | ub => rw [hp] at h; cases h
    | ok z =>
      rw [hp, Out.bind_ok] at h
      cases h
      show (rr'.getD .null).p ≠ []
      by_cases hm : M.p = []
      · rw [getRR_fresh hm] at q1
        cases hf : freshRR N with
        | err e => rw [hf] at q1; cases q1
        | ub => rw [hf] at q1; cases q1
        | ok R => rw [hf] at q1; cases q1; exact q2
      · rw [getRR_cached hm] at q1
        cases q1
        exact q2

theorem st_assoc {α β γ : Type} (x : St α) (f : α → St β) (h : β → St γ) : (x >>= f >>= h) = (x >>= fun a => f a >>= h) := by
  funext c i
  rw [bind_apply, bind_apply, bind_apply]
  generalize x c i = y
  obtain ⟨y, d, j⟩ := y
  cases y <;> rfl

/-- `x` does not change the context. -/
def Keeps {α : Type} (x : St α) : Prop := ∀ c i, (x c i).2.1 = c

theorem Keeps.of {α : Type} (x : Out α) : Keeps (St.of x) := fun _ _ => rfl

theorem Keeps.bind {α β : Type} {x : Out α} {f : α → St β} (h : ∀ a, Keeps (f a)) : Keeps (St.of x >>= f) := fun c i => by
  cases x with
  | ok a => exact h a c i
  | err e => rfl
  | ub => rfl

/-- **C76**: one evaluation fills the cache for evaluations, and one `invert_mult` the caches for `invert_mult`. -/
theorem c76_fills {v : Inv} {s : Tdp.Priv} (hv : Ready v s) {m : Bytes} (hm : m.length = 256) :
    (evalArray v.ctx m).2.RN.p ≠ [] ∧ ∀ k, k ≠ 0 → (invertMult v m k).2.ctx.RP.p ≠ [] ∧ (invertMult v m k).2.ctx.RQ.p ≠ [] := by
  have h := hv.good.ctx
  have hl : v.ctx.len = 256 := hv.key.len
  have hps := hv.key.priv
  unfold abs at hps
  simp only at hps
  rw [if_neg hv.good.priv, Option.some.injEq] at hps
  have hP0 : 0 < v.ctx.P.mag := by
    have := hv.key.key.primeP.pos
    rwa [← hps] at this
  have hQ0 : 0 < v.ctx.Q.mag := by
    have := hv.key.key.primeQ.pos
    rwa [← hps] at this
  constructor
  · obtain ⟨RN, r1, r2, r3⟩ := evalArray_run h (inp := m) hm
    obtain ⟨y, _, y2, _⟩ := Tdp.c37_eval hv.key (m := m) hm
    have hy : (evalArray v.ctx m).1 = .ok y := by rw [r3, y2]
    unfold evalArray at hy ⊢
    rw [if_neg (by rw [hl]; decide)] at hy ⊢
    unfold evalExp at hy ⊢
    rw [← out_assoc] at hy ⊢
    cases hx : (do let x ← readBinary .null m; modMpi x .self v.ctx.N : Out Mpi) with
    | err e => rw [hx] at hy; cases hy
    | ub => rw [hx] at hy; cases hy
    | ok x =>
      rw [hx, Out.bind_ok] at hy
      rw [Out.bind_ok]
      cases hr : expMod x .self v.ctx.E v.ctx.N (some v.ctx.RN) with
      | err e => rw [hr] at hy; cases hy
      | ub => rw [hr] at hy; cases hy
      | ok r => exact exp_fills h.N hv.key.key.Npos h.RN hr
  · intro k hk
    obtain ⟨RP, RQ, r1, r2, r3⟩ := invertMult_run hv.good (inp := m) hm k
    obtain ⟨y, x1, -⟩ := Tdp.invertMult_eq hv.key m k hk
    have hy : (invertMult v m k).1 = .ok y := by rw [r3, x1]
    unfold invertMult at hy ⊢
    rw [if_neg hk, if_neg (by rw [hl]; decide)] at hy ⊢
    unfold multRun at hy ⊢
    cases hx : readBinary .null m with
    | err e => rw [hx] at hy; cases hy
    | ub => rw [hx] at hy; cases hy
    | ok x =>
      rw [hx] at hy
      cases hd : multExps v k with
      | err e => rw [hd] at hy; cases hy
      | ub => rw [hd] at hy; cases hy
      | ok d =>
        rw [hd] at hy
        change toRes .runtimeError ((crt .null x d.1 d.2 >>= fun y => St.of (writeBinary y msgSize)) v.ctx 0).1 = .ok y at hy
        show ((crt .null x d.1 d.2 >>= fun y => St.of (writeBinary y msgSize)) v.ctx 0).2.1.RP.p ≠ [] ∧
          ((crt .null x d.1 d.2 >>= fun y => St.of (writeBinary y msgSize)) v.ctx 0).2.1.RQ.p ≠ []
        unfold crt at hy ⊢
        rw [st_assoc, get_bind, st_assoc] at hy ⊢
        cases ha : expMod .null (.ext x) d.1 v.ctx.P (some v.ctx.RP) with
        | err e => rw [ha] at hy; cases hy
        | ub => rw [ha] at hy; cases hy
        | ok a =>
          rw [ha] at hy
          rw [of_bind_ok rfl, st_assoc, put_bind, st_assoc] at hy ⊢
          cases hb : expMod .null (.ext x) d.2 v.ctx.Q (some v.ctx.RQ) with
          | err e => rw [hb] at hy; cases hy
          | ub => rw [hb] at hy; cases hy
          | ok b =>
            rw [of_bind_ok rfl, st_assoc, put_bind]
            have f1 := exp_fills h.P hP0 h.RP ha
            have f2 := exp_fills h.Q hQ0 h.RQ hb
            simp only [st_assoc]
            rw [Keeps.bind fun _ => Keeps.bind fun _ => Keeps.bind fun _ => Keeps.bind fun _ => Keeps.bind fun _ => Keeps.of _]
            exact ⟨f1, f2⟩

/-! ## Objects whose caches are empty -/

/-- The second configuration comes from the first by some interleaving. -/
def Reach {α : Type} (x y : Cfg α) : Prop := ∃ sched, x.exec sched = y

theorem Reach.refl {α : Type} (x : Cfg α) : Reach x x := ⟨[], rfl⟩

theorem Reach.trans {α : Type} {x y z : Cfg α} (h1 : Reach x y) (h2 : Reach y z) : Reach x z := by
  obtain ⟨a, rfl⟩ := h1
  obtain ⟨b, rfl⟩ := h2
  exact ⟨a ++ b, by unfold Cfg.exec; rw [List.foldl_append]⟩

theorem reach_read0 {α : Type} (m : Mem) (l : Loc) (k : Val l → Prog α) (t : Prog α) : Reach ⟨m, [.read l k, t]⟩ ⟨m, [k (m.get l), t]⟩ := ⟨[0], rfl⟩
theorem reach_read1 {α : Type} (m : Mem) (l : Loc) (k : Val l → Prog α) (t : Prog α) : Reach ⟨m, [t, .read l k]⟩ ⟨m, [t, k (m.get l)]⟩ := ⟨[1], rfl⟩
theorem reach_write0 {α : Type} (m : Mem) (l : Loc) (v : Val l) (k t : Prog α) : Reach ⟨m, [.write l v k, t]⟩ ⟨m.set l v, [k, t]⟩ := ⟨[0], rfl⟩
theorem reach_write1 {α : Type} (m : Mem) (l : Loc) (v : Val l) (k t : Prog α) : Reach ⟨m, [t, .write l v k]⟩ ⟨m.set l v, [t, k]⟩ := ⟨[1], rfl⟩

theorem reach_bind0 {α β : Type} (p : Prog α) (f : α → Prog β) (t : Prog β) : ∀ m, Reach ⟨m, [p >>= f, t]⟩ ⟨(p.alone m).2, [f (p.alone m).1, t]⟩ := by
  induction p with
  | ret a => intro m; exact Reach.refl _
  | read l k ih => intro m; exact (reach_read0 m l (fun v => (k v) >>= f) t).trans (ih (m.get l) m)
  | write l v k ih => intro m; exact (reach_write0 m l v (k >>= f) t).trans (ih (m.set l v))

theorem reach_bind1 {α β : Type} (p : Prog α) (f : α → Prog β) (t : Prog β) : ∀ m, Reach ⟨m, [t, p >>= f]⟩ ⟨(p.alone m).2, [t, f (p.alone m).1]⟩ := by
  induction p with
  | ret a => intro m; exact Reach.refl _
  | read l k ih => intro m; exact (reach_read1 m l (fun v => (k v) >>= f) t).trans (ih (m.get l) m)
  | write l v k ih => intro m; exact (reach_write1 m l v (k >>= f) t).trans (ih (m.set l v))

theorem bind_assoc {α β γ : Type} (p : Prog α) (f : α → Prog β) (h : β → Prog γ) : (p >>= f >>= h) = (p >>= fun a => f a >>= h) := by
  induction p with
  | ret a => rfl
  | read l k ih => exact congrArg (Prog.read l) (funext fun v => ih v)
  | write l v k ih => exact congrArg (Prog.write l v) ih

/-- An evaluation that succeeds, up to its first access. -/
theorem evalProg_eq (o : Order) {c : Ctx} {inp y : Bytes} (h : (evalArray c inp).1 = .ok y) :
    ∃ (t : Pre) (R : Mpi) (f : Out Mpi → Res Bytes), constant c .N = .ok R ∧ f .ub = .ub ∧
      evalProg o c inp = (cacheProg o .N c.N >>= fun r => .read (.cache .N .ptr) fun _ => .ret (f (r >>= expPost c.E c.N t))) := by
  unfold evalArray at h
  by_cases hl : msgSize ≠ c.len
  · rw [if_pos hl] at h; cases h
  rw [if_neg hl] at h
  unfold evalProg
  rw [if_neg hl]
  have e : evalExp c inp = ((do let x ← readBinary .null inp; modMpi x .self c.N : Out Mpi) >>= fun x => expMod x .self c.E c.N (some c.RN)) := by
    unfold evalExp
    rw [out_assoc]
  rw [e] at h
  cases hx : (do let x ← readBinary .null inp; modMpi x .self c.N : Out Mpi) with
  | err e => rw [hx] at h; cases h
  | ub => rw [hx] at h; cases h
  | ok x =>
    rw [hx, Out.bind_ok, expMod_split] at h
    unfold expProg
    cases ht : expPre x .self c.E c.N with
    | err e => rw [ht] at h; cases h
    | ub => rw [ht] at h; cases h
    | ok t =>
      rw [ht, Out.bind_ok] at h
      have e2 := getRR_constant c .N
      change getRR c.N (some c.RN) = _ at e2
      rw [e2] at h
      cases hR : constant c .N with
      | err e => rw [hR] at h; cases h
      | ub => rw [hR] at h; cases h
      | ok R =>
        refine ⟨t, R, fun r => match r with
          | .ok x => writeIgn x
          | .err _ => .exc .runtimeError
          | .ub => .ub, rfl, rfl, ?_⟩
        simp only [ht, bind_assoc]
        rfl

/-- **C76**: but on an object whose cache is empty, such as a new one, two threads that evaluate race. -/
theorem c76_first_false {o : Order} (ho : o.st ≠ []) {v : Inv} {s : Tdp.Priv} (hv : Ready v s) (hr : v.ctx.RN.p = []) {a b : Bytes} (ha : a.length = 256)
    (hb : b.length = 256) : Racy ((start o v [.eval a, .eval b]).exec [0, 1]) := by
  have val : ∀ m : Bytes, m.length = 256 → ∃ y, (evalArray v.ctx m).1 = .ok y := fun m hm => by
    obtain ⟨RN, r1, r2, r3⟩ := evalArray_run hv.good.ctx (inp := m) hm
    obtain ⟨y, _, y2, _⟩ := Tdp.c37_eval hv.key (m := m) hm
    exact ⟨y, by rw [r3, y2]⟩
  obtain ⟨y, hy⟩ := val a ha
  obtain ⟨z, hz⟩ := val b hb
  obtain ⟨t, R, f, t1, -, t2⟩ := evalProg_eq o hy
  obtain ⟨t', R', f', t1', -, t2'⟩ := evalProg_eq o hz
  have hR : freshRR v.ctx.N = .ok R := by
    have : constant v.ctx .N = freshRR v.ctx.N := by unfold constant; rw [if_neg (by simpa [slot] using hr)]; rfl
    rw [← this, t1]
  obtain ⟨fd, rest, hst⟩ : ∃ fd rest, o.st = fd :: rest := by
    cases h : o.st with
    | nil => exact absurd h ho
    | cons fd rest => exact ⟨fd, rest, rfl⟩
  have key : ∀ k : Out Mpi → Prog (Res Bytes), ∃ (w : Val (.cache .N fd)) (q : Prog (Res Bytes)), (match (cacheProg o .N v.ctx.N >>= k) with
      | .read l k => k ((Mem.of v.ctx).get l)
      | p => p) = .write (.cache .N fd) w q := fun k => by
    have : (match (cacheProg o .N v.ctx.N >>= k) with
      | .read l k => k ((Mem.of v.ctx).get l)
      | p => p) = ((if v.ctx.RN.p = [] then
      match freshRR v.ctx.N with
      | .ok R => do
        store .N R o.st
        pure (.ok R)
      | .err e => pure (.err e)
      | .ub => pure .ub
    else do
      let r ← load .N o.ld ⟨false, 0, []⟩
      pure r.view : Prog (Out Mpi)) >>= k) := rfl
    rw [this, if_pos hr, hR, hst]
    cases fd <;> exact ⟨_, _, rfl⟩
  obtain ⟨w, q, hw⟩ := key fun r => .read (.cache .N .ptr) fun _ => .ret (f (r >>= expPost v.ctx.E v.ctx.N t))
  obtain ⟨w', q', hw'⟩ := key fun r => .read (.cache .N .ptr) fun _ => .ret (f' (r >>= expPost v.ctx.E v.ctx.N t'))
  rw [← t2] at hw
  rw [← t2'] at hw'
  have e : ∃ k k', evalProg o v.ctx a = .read (.cache .N .ptr) k ∧ evalProg o v.ctx b = .read (.cache .N .ptr) k' := ⟨_, _, t2, t2'⟩
  obtain ⟨k, k', e1, e2⟩ := e
  rw [e1] at hw
  rw [e2] at hw'
  have run : (start o v [.eval a, .eval b]).exec [0, 1] = ⟨Mem.of v.ctx, [.write (.cache .N fd) w q, .write (.cache .N fd) w' q']⟩ := by
    show (Cfg.mk (Mem.of v.ctx) [evalProg o v.ctx a, evalProg o v.ctx b]).exec [0, 1] = _
    rw [e1, e2]
    show Cfg.mk (Mem.of v.ctx) [k ((Mem.of v.ctx).get _), k' ((Mem.of v.ctx).get _)] = _
    exact congrArg₂ (fun x y => Cfg.mk (Mem.of v.ctx) [x, y]) hw hw'
  rw [run]
  exact ⟨0, 1, _, _, .cache .N fd, by decide, rfl, rfl, rfl, rfl⟩

theorem load_alone (m : Mem) (s : Slot) (fs : List Field) : ∀ r : Fields, ∃ r', (load s fs r).alone m = (r', m) ∧
    ((.size ∈ fs ∨ r.n = m.size s) → r'.n = m.size s) ∧ ((.ptr ∈ fs ∨ r.p = m.ptr s) → r'.p = m.ptr s) := by
  induction fs with
  | nil => intro r; exact ⟨r, rfl, by simp, by simp⟩
  | cons f fs ih =>
    intro r
    cases f
    · obtain ⟨r', h1, h2, h3⟩ := ih { r with neg := m.sign s }
      exact ⟨r', h1, fun h => h2 (by simpa using h), fun h => h3 (by simpa using h)⟩
    · obtain ⟨r', h1, h2, h3⟩ := ih { r with n := m.size s }
      exact ⟨r', h1, fun h => h2 (.inr rfl), fun h => h3 (by simpa using h)⟩
    · obtain ⟨r', h1, h2, h3⟩ := ih { r with p := m.ptr s }
      exact ⟨r', h1, fun h => h2 (by simpa using h), fun h => h3 (.inr rfl)⟩

/-- **C76**: and if the copy stores the pointer first, one of them may work with a torn structure. -/
theorem c76_torn_false {o : Order} {rest : List Field} (ho : o.st = .ptr :: rest) (hl : .size ∈ o.ld ∧ .ptr ∈ o.ld) {v : Inv} {s : Tdp.Priv}
    (hv : Ready v s) (hr : v.ctx.RN.p = []) {a b : Bytes} (ha : a.length = 256) (hb : b.length = 256) :
    ∃ sched, ((start o v [.eval a, .eval b]).exec sched).threads[1]? = some (.ret .ub) := by
  have val : ∀ m : Bytes, m.length = 256 → ∃ y, (evalArray v.ctx m).1 = .ok y := fun m hm => by
    obtain ⟨RN, r1, r2, r3⟩ := evalArray_run hv.good.ctx (inp := m) hm
    obtain ⟨y, _, y2, _⟩ := Tdp.c37_eval hv.key (m := m) hm
    exact ⟨y, by rw [r3, y2]⟩
  obtain ⟨y, hy⟩ := val a ha
  obtain ⟨z, hz⟩ := val b hb
  obtain ⟨t, R, f, t1, -, t2⟩ := evalProg_eq o hy
  obtain ⟨t', R', f', -, f2, t2'⟩ := evalProg_eq o hz
  have hc : constant v.ctx .N = freshRR v.ctx.N := by unfold constant; rw [if_neg (by simpa [slot] using hr)]; rfl
  have hR : freshRR v.ctx.N = .ok R := by rw [← hc, t1]
  have hN0 : 0 < v.ctx.N.mag := hv.key.key.Npos
  have hRp : R.p ≠ [] := by
    obtain ⟨RR, rr', q1, -, -, q2, -⟩ := getRR_spec hv.good.ctx.N.wf (by rw [toInt_of_neg_false hv.good.ctx.N.pos]; exact_mod_cast hN0)
      (le_trans hv.good.ctx.N.len (by omega)) hv.good.ctx.RN
    rw [getRR_fresh hr, hR] at q1
    cases q1
    exact q2
  let m1 := (Mem.of v.ctx).set (.cache .N .ptr) R.p
  suffices h : ∃ x, Reach (start o v [.eval a, .eval b]) ⟨m1, [x, .ret .ub]⟩ by
    obtain ⟨x, sched, h⟩ := h
    exact ⟨sched, by rw [h]; rfl⟩
  have e0 : start o v [.eval a, .eval b] = ⟨Mem.of v.ctx, [evalProg o v.ctx a, evalProg o v.ctx b]⟩ := rfl
  rw [e0]
  have s1 : ∃ x, Reach ⟨Mem.of v.ctx, [evalProg o v.ctx a, evalProg o v.ctx b]⟩ ⟨m1, [x, evalProg o v.ctx b]⟩ := by
    rw [t2]
    generalize (fun r => Prog.read (.cache .N .ptr) fun _ => Prog.ret (f (r >>= expPost v.ctx.E v.ctx.N t))) = k
    refine ⟨store .N R rest >>= fun _ => k (.ok R), ?_⟩
    have e1 : (cacheProg o .N v.ctx.N >>= k) = .read (.cache .N .ptr) fun (p : List Nat) => ((if p = [] then
        match freshRR v.ctx.N with
        | .ok R => do
          store .N R o.st
          pure (.ok R)
        | .err e => pure (.err e)
        | .ub => pure .ub
      else do
        let r ← load .N o.ld ⟨false, 0, []⟩
        pure r.view : Prog (Out Mpi)) >>= k) := rfl
    rw [e1]
    refine (reach_read0 _ _ _ _).trans ?_
    show Reach ⟨_, [(if v.ctx.RN.p = [] then _ else _) >>= k, _]⟩ _
    rw [if_pos hr, hR, ho]
    have e2 : ((do
          store .N R (.ptr :: rest)
          pure (.ok R) : Prog (Out Mpi)) >>= k) = .write (.cache .N .ptr) R.p (store .N R rest >>= fun _ => k (.ok R)) := by
      rw [bind_assoc]
      rfl
    show Reach ⟨_, [(do
          store .N R (.ptr :: rest)
          pure (.ok R) : Prog (Out Mpi)) >>= k, _]⟩ _
    rw [e2]
    exact reach_write0 _ _ _ _ _
  obtain ⟨x, s1⟩ := s1
  refine ⟨x, s1.trans ?_⟩
  rw [t2']
  refine (reach_bind1 _ _ _ m1).trans ?_
  obtain ⟨r', h1, h2, h3⟩ := load_alone m1 .N o.ld ⟨false, 0, []⟩
  have e3 : (cacheProg o .N v.ctx.N).alone m1 = (r'.view, m1) := by
    show (if R.p = [] then _ else _ : Prog (Out Mpi)).alone m1 = _
    rw [if_neg hRp, alone_bind, h1]
    rfl
  rw [e3]
  have e4 : r'.view = .ub := by
    unfold Fields.view
    rw [h2 (.inl hl.1), h3 (.inl hl.2)]
    have : m1.size .N = 0 := by show v.ctx.RN.p.length = 0; rw [hr]; rfl
    rw [this, if_neg]
    show ¬ 0 = R.p.length
    intro h
    exact hRp (List.length_eq_zero_iff.1 h.symm)
  rw [e4]
  refine (reach_read1 m1 _ _ x).trans ?_
  show Reach ⟨m1, [x, .ret (f' .ub)]⟩ _
  rw [f2]
  exact Reach.refl _

/-! ## Inversion -/

theorem Ok.alone {α : Type} {I : Mem → Prop} {le : Mem → Mem → Prop} (hle : Rely le) {p : Prog α} {v : α} {m : Mem} (h : Ok I le p v m) (hI : I m) :
    (p.alone m).1 = v ∧ I (p.alone m).2 := by
  have key : ∀ m', I m' → le m m' → (p.alone m').1 = v ∧ I (p.alone m').2 := by
    clear hI
    induction h with
    | ret v m => intro m' i l; exact ⟨rfl, i⟩
    | read h ih => intro m' i l; exact ih m' i l m' i (hle.refl _)
    | write h h' ih => intro m' i l; exact ih m' i l _ (h m' i l).1 (hle.refl _)
  exact key m hI (hle.refl m)

/-- `p` does not write the blinding values. -/
inductive Caches {α : Type} : Prog α → Prop
  | ret (a : α) : Caches (.ret a)
  | read {l : Loc} {k : Val l → Prog α} (h : ∀ v, Caches (k v)) : Caches (.read l k)
  | write {s : Slot} {f : Field} {v : Val (.cache s f)} {k : Prog α} (h : Caches k) : Caches (.write (.cache s f) v k)

theorem Caches.bind {α β : Type} {p : Prog α} {f : α → Prog β} (h : Caches p) (hf : ∀ a, Caches (f a)) : Caches (p >>= f) := by
  induction h with
  | ret a => exact hf a
  | read h ih => exact .read ih
  | write h ih => exact .write ih

theorem Caches.alone {α : Type} {p : Prog α} (h : Caches p) (m : Mem) : (p.alone m).2.vi = m.vi ∧ (p.alone m).2.vf = m.vf := by
  induction h generalizing m with
  | ret a => exact ⟨rfl, rfl⟩
  | read h ih => exact ih _ m
  | @write s f v k h ih =>
    have := ih (m.set (.cache s f) v)
    cases f <;> exact this

theorem expProg_caches (o : Order) (s : Slot) (X : Mpi) (A : Arg) (E N : Mpi) : Caches (expProg o s X A E N) := by
  have st : ∀ (R : Mpi) (fs : List Field), Caches (store s R fs) := fun R fs => by
    induction fs with
    | nil => exact .ret _
    | cons f fs ih => cases f <;> exact .write ih
  have ld : ∀ (fs : List Field) (r : Fields), Caches (load s fs r) := fun fs => by
    induction fs with
    | nil => intro r; exact .ret _
    | cons f fs ih => intro r; cases f <;> exact .read fun v => ih _
  unfold expProg
  cases expPre X A E N with
  | err e => exact .ret _
  | ub => exact .ret _
  | ok t =>
    refine Caches.bind (.read fun p => ?_) fun R => .read fun _ => .ret _
    show Caches (if (show List Nat from p) = [] then _ else _)
    split
    · cases freshRR N with
      | err e => exact .ret _
      | ub => exact .ret _
      | ok R => exact (st R o.st).bind fun _ => .ret _
    · exact (ld o.ld _).bind fun _ => .ret _

theorem crtProg_caches (o : Order) (c : Ctx) (dst T DP DQ : Mpi) : Caches (crtProg o c dst T DP DQ) := by
  refine (expProg_caches o .P _ _ _ _).bind fun a => ?_
  cases a with
  | err e => exact .ret _
  | ub => exact .ret _
  | ok T1 => exact (expProg_caches o .Q _ _ _ _).bind fun _ => .ret _

theorem of_fst {α β : Type} (x : Out α) (f : α → St β) (c : Ctx) (i : Nat) : ((St.of x >>= f) c i).1 = (x >>= fun a => (f a c i).1) := by
  cases x <;> rfl

theorem rand_fst {α β : Type} (r : Run α) (f : α → St β) (c : Ctx) (i : Nat) : ((St.rand r >>= f) c i).1 = ((r i).1 >>= fun a => (f a c (r i).2).1) := by
  rw [bind_apply]
  unfold St.rand
  generalize r i = x
  obtain ⟨x, j⟩ := x
  cases x <;> rfl

theorem pure_bind {α β : Type} (a : α) (f : α → St β) : (pure a >>= f) = f a := rfl

theorem crt_fst {β : Type} (dst T DP DQ : Mpi) (f : Mpi → St β) (c : Ctx) (i : Nat) :
    ((crt dst T DP DQ >>= f) c i).1 = ((crt dst T DP DQ c i).1 >>= fun a => (f a (crt dst T DP DQ c i).2.1 (crt dst T DP DQ c i).2.2).1) := by
  rw [bind_apply]
  generalize crt dst T DP DQ c i = y
  obtain ⟨y, d, j⟩ := y
  cases y <;> rfl

/-- The private operation after the blinding values are there, with the random numbers that a thread uses. -/
theorem blinded_fst (g : Rng) (T : Mpi) (c : Ctx) (i : Nat) :
    (blindedPrivate g T c i).1 = (blindPre g c i T c.Vi >>= fun t => (crt t.1 t.1 t.2.1 t.2.2 c 0).1 >>= fun T => blindEnd c T c.Vf) := by
  unfold blindedPrivate blindPre blindExponent blindEnd
  simp only [get_bind, st_assoc, pure_bind, of_fst, rand_fst, crt_fst, out_assoc, out_pure_ok, Out.bind_ok]
  simp only [of_apply, crt_res]

/-- The four updates of the blinding values, and what follows. -/
def updates (c : Ctx) (k : Prog (Out Bytes)) : Prog (Out Bytes) :=
  updateProg .vi id id (fun x => mulMpi x .self .self) <|
  updateProg .vi id id (fun x => modMpi x .self c.N) <|
  updateProg .vf id id (fun x => mulMpi x .self .self) <|
  updateProg .vf id id (fun x => modMpi x .self c.N) k

/-- The memory after the updates. -/
def updated (m : Mem) (vi vf : Mpi) : Mem := { m with vi := vi, vf := vf }

/-- The squares modulo `N` that one thread computes when no other interferes. -/
structure Squares (c : Ctx) (vi vf vi' vf' : Mpi) : Prop where
  vi : ∃ R, mulMpi vi .self .self = .ok R ∧ modMpi R .self c.N = .ok vi'
  vf : ∃ R, mulMpi vf .self .self = .ok R ∧ modMpi R .self c.N = .ok vf'

theorem updates_alone {c : Ctx} {vi vf vi' vf' : Mpi} (h : Squares c vi vf vi' vf') (k : Prog (Out Bytes)) {m : Mem} (h1 : m.vi = vi) (h2 : m.vf = vf) :
    (updates c k).alone m = k.alone (updated m vi' vf') := by
  obtain ⟨R, r1, r2⟩ := h.vi
  obtain ⟨S, s1, s2⟩ := h.vf
  unfold updates
  simp only [updateProg, Prog.alone, id, Mem.get, h1, r1, Mem.set, r2, h2, s1, s2]
  rfl

theorem updates_reach0 {c : Ctx} {vi vf vi' vf' : Mpi} (h : Squares c vi vf vi' vf') (k : Prog (Out Bytes)) {β : Type} (f : Out Bytes → Prog β) (t : Prog β) {m : Mem}
    (h1 : m.vi = vi) (h2 : m.vf = vf) : Reach ⟨m, [updates c k >>= f, t]⟩ ⟨updated m vi' vf', [k >>= f, t]⟩ := by
  obtain ⟨R, r1, r2⟩ := h.vi
  obtain ⟨S, s1, s2⟩ := h.vf
  refine ⟨[0, 0, 0, 0, 0, 0, 0, 0], ?_⟩
  unfold updates
  simp only [updateProg, Cfg.exec, List.foldl, Cfg.step, Bind.bind, Prog.bind, List.getElem?_cons_zero, List.set_cons_zero, Mem.get, id, h1, r1, Mem.set, r2, h2, s1, s2]
  rfl

theorem updates_reach1 {c : Ctx} {vi vf vi' vf' : Mpi} (h : Squares c vi vf vi' vf') (k : Prog (Out Bytes)) {β : Type} (f : Out Bytes → Prog β) (t : Prog β) {m : Mem}
    (h1 : m.vi = vi) (h2 : m.vf = vf) : Reach ⟨m, [t, updates c k >>= f]⟩ ⟨updated m vi' vf', [t, k >>= f]⟩ := by
  obtain ⟨R, r1, r2⟩ := h.vi
  obtain ⟨S, s1, s2⟩ := h.vf
  refine ⟨[1, 1, 1, 1, 1, 1, 1, 1], ?_⟩
  unfold updates
  simp only [updateProg, Cfg.exec, List.foldl, Cfg.step, Bind.bind, Prog.bind, List.getElem?_cons_zero, List.getElem?_cons_succ, List.set_cons_zero, List.set_cons_succ, Mem.get, id, h1, r1,
    Mem.set, r2, h2, s1, s2]
  rfl

/-- What `invert` makes of the result of `mbedtls_rsa_private`. -/
def invertEnd : Out Bytes → Res Bytes
  | .err _ => .exc .invalidArgument
  | .ub => .ub
  | .ok b => if b.length = msgSize then .ok b else .ub

theorem invertEnd_ok {b : Bytes} (h : b.length = msgSize) : invertEnd (.ok b) = .ok b := by
  unfold invertEnd
  exact if_pos h

/-- An inversion of a number that is less than the modulus, up to its first access. -/
theorem invertProg_eq (o : Order) (g : Rng) {v : Inv} {s : Tdp.Priv} (hv : Ready v s) (i : Nat) {a : Bytes} (ha : a.length = 256) (haN : beNat a < (abs v.ctx).N) :
    ∃ T, readBinary .null a = .ok T ∧ U T (beNat a) 129 ∧
      invertProg o g v.ctx i a = (updates v.ctx (blindedProg o g v.ctx i T) >>= fun r => .ret (invertEnd r)) ∧
      (v.ctx.Vf.p ≠ [] → rsaPrivate g a v.ctx i = (do squareBlinding; blindedPrivate g T : St Bytes) v.ctx i) := by
  have hl : v.ctx.len = 256 := hv.key.len
  obtain ⟨T, t1, t2, _⟩ := read_U U.null.v (b := a) (by unfold maxLimbs; omega)
  have t2' : U T (beNat a) 129 := t2.mono (by rw [ha]; decide)
  have hc : ¬ cmpMpi T v.ctx.N ≥ 0 := by rw [cmpGe t2.v hv.good.ctx.N.v]; exact not_le.2 haN
  refine ⟨T, t1, t2', ?_, fun hf => ?_⟩
  · unfold invertProg privProg
    rw [if_neg hv.good.priv, if_neg (by omega), if_neg hv.good.priv, List.take_of_length_le (by omega), t1]
    simp only
    rw [if_neg hc]
    rfl
  · unfold rsaPrivate prepareBlinding
    rw [get_bind, if_neg hv.good.priv, of_bind_ok t1, if_neg hc, bind_apply, get_bind, if_pos hf]
    rfl

theorem squares {c : Ctx} (h : Good c) (hN : 0 < c.N.mag) {vi vf : Mpi} (h1 : Num 1000 vi) (h2 : limbs vi.mag ≤ 301) (h3 : Num 1000 vf) (h4 : limbs vf.mag ≤ 301) :
    ∃ vi' vf', Squares c vi vf vi' vf' ∧ U vi' (vi.mag * vi.mag % c.N.mag) 1000 ∧ limbs vi'.mag ≤ 301 ∧ U vf' (vf.mag * vf.mag % c.N.mag) 1000 ∧ limbs vf'.mag ≤ 301 ∧
      vf'.p ≠ [] := by
  obtain ⟨R, S, r1, r2, r3, r4, r5⟩ := square_U h1 h2 h.N hN
  obtain ⟨T, W, t1, t2, t3, t4, t5⟩ := square_U h3 h4 h.N hN
  exact ⟨S, W, ⟨⟨R, r1, r2⟩, ⟨T, t1, t2⟩⟩, r3, r5, t3, t5, t4⟩

/-- The blinded part by itself. -/
theorem blindedProg_alone {o : Order} (ho : o.Ok) (g : Rng) (c : Ctx) (i : Nat) (T : Mpi) {m : Mem} (hm : I c m) :
    ((blindedProg o g c i T).alone m).1 = (blindedPrivate g T { c with Vi := m.vi, Vf := m.vf } i).1 := by
  rw [blinded_fst]
  show ((match blindPre g c i T m.vi with
    | .err e => .ret (.err e)
    | .ub => .ret .ub
    | .ok t => _ : Prog (Out Bytes)).alone m).1 = (blindPre g c i T m.vi >>= _)
  cases blindPre g c i T m.vi with
  | err e => rfl
  | ub => rfl
  | ok t =>
    have h1 := (crtProg_ok (c := c) ho t.1 t.1 t.2.1 t.2.2 0 m).alone (rely c) hm
    have h2 := (crtProg_caches o c t.1 t.1 t.2.1 t.2.2).alone m
    simp only [alone_bind, Out.bind_ok]
    rw [h1.1]
    show ((crt t.1 t.1 t.2.1 t.2.2 c 0).1 >>= fun T => blindEnd c T ((crtProg o c t.1 t.1 t.2.1 t.2.2).alone m).2.vf) = _
    rw [h2.2, crt_res, crt_res]
    rfl

/-- **C76**: an inversion that no other thread disturbs gives the result of `ModelTdp`. -/
theorem c76_alone {o : Order} (ho : o.Ok) (g : Rng) {v : Inv} {s : Tdp.Priv} (hv : Ready v s) (hf : v.ctx.Vf.p ≠ []) (i : Nat) {a : Bytes} (ha : a.length = 256)
    (haN : beNat a < (abs v.ctx).N) : ((invertProg o g v.ctx i a).alone (Mem.of v.ctx)).1 = (invertBuf g v.ctx i a).1 := by
  obtain ⟨T, t1, t2, t3, t4⟩ := invertProg_eq o g hv i ha haN
  have h := hv.good.ctx
  have hN0 : 0 < v.ctx.N.mag := hv.key.key.Npos
  have hl : v.ctx.len = 256 := hv.key.len
  obtain ⟨vi', vf', q, q1, q2, q3, q4, q5⟩ := squares h hN0 h.Vi h.vi h.Vf h.vf
  have e1 : (invertBuf g v.ctx i a).1 = invertEnd (rsaPrivate g a v.ctx i).1 := by
    unfold invertBuf invertEnd
    rw [if_neg hv.good.priv, if_neg (by omega), List.take_of_length_le (by omega)]
    generalize rsaPrivate g a v.ctx i = r
    obtain ⟨r, d, j⟩ := r
    cases r with
    | err e => rfl
    | ub => rfl
    | ok b => simp only; split <;> rfl
  have e2 : squareBlinding v.ctx i = (.ok (), { v.ctx with Vi := vi', Vf := vf' }, i) := by
    obtain ⟨R, r1, r2⟩ := q.vi
    obtain ⟨S, s1, s2⟩ := q.vf
    unfold squareBlinding
    rw [get_bind, of_bind_ok r1, put_bind, of_bind_ok r2, put_bind, of_bind_ok s1, put_bind, of_bind_ok s2, put_apply]
  rw [t3, alone_bind, e1, t4 hf, bind_ok e2]
  show invertEnd ((updates v.ctx (blindedProg o g v.ctx i T)).alone (Mem.of v.ctx)).1 = _
  rw [updates_alone q _ rfl rfl, blindedProg_alone ho g v.ctx i T (m := updated (Mem.of v.ctx) vi' vf') (I_of v.ctx)]
  rfl

/-- **C76**: two inversions on one object race, whatever the object has done before. -/
theorem c76_invert_race (o : Order) (g : Rng) {v : Inv} {s : Tdp.Priv} (hv : Ready v s) (i j : Nat) {a b : Bytes} (ha : a.length = 256)
    (haN : beNat a < (abs v.ctx).N) (hb : b.length = 256) (hbN : beNat b < (abs v.ctx).N) :
    Racy ((Cfg.mk (Mem.of v.ctx) [invertProg o g v.ctx i a, invertProg o g v.ctx j b]).exec [0]) := by
  obtain ⟨T, -, -, t3, -⟩ := invertProg_eq o g hv i ha haN
  obtain ⟨T', -, -, t3', -⟩ := invertProg_eq o g hv j hb hbN
  have hN0 : 0 < v.ctx.N.mag := hv.key.key.Npos
  obtain ⟨vi', vf', ⟨⟨R, r1, r2⟩, -⟩, -⟩ := squares hv.good.ctx hN0 hv.good.ctx.Vi hv.good.ctx.vi hv.good.ctx.Vf hv.good.ctx.vf
  rw [t3, t3']
  have e : ∀ (k k' : Prog (Out Bytes)) (f : Out Bytes → Prog (Res Bytes)), ∃ q q',
      (Cfg.mk (Mem.of v.ctx) [updates v.ctx k >>= f, updates v.ctx k' >>= f]).exec [0] = ⟨Mem.of v.ctx, [.write .vi R q, .read .vi q']⟩ := fun k k' f => by
    unfold updates
    simp only [updateProg, Cfg.exec, List.foldl, Cfg.step, Bind.bind, Prog.bind, List.getElem?_cons_zero, List.set_cons_zero, Mem.get, id, Mem.of, r1]
    exact ⟨_, _, rfl⟩
  obtain ⟨q, q', hq⟩ := e (blindedProg o g v.ctx i T) (blindedProg o g v.ctx j T') (fun r => .ret (invertEnd r))
  rw [hq]
  exact ⟨0, 1, _, _, .vi, by decide, rfl, rfl, rfl, rfl⟩

/-- **C76**: and one of them may give, without any error, the inverse multiplied by the square of the unblinding value. -/
theorem c76_invert_false {o : Order} (ho : o.Ok) {g : Rng} (hg : Total g) {v : Inv} {s : Tdp.Priv} (hv : Ready v s) {vi vf : Nat}
    (hbl : (abs v.ctx).blind = some (vi, vf)) (i j : Nat) {a b : Bytes} (ha : a.length = 256)
    (haN : beNat a < (abs v.ctx).N) (hb : b.length = 256) (hbN : beNat b < (abs v.ctx).N) :
    ∃ sched y x, ((Cfg.mk (Mem.of v.ctx) [invertProg o g v.ctx i a, invertProg o g v.ctx j b]).exec sched).threads[0]? = some (.ret (.ok y)) ∧
      x < (abs v.ctx).N ∧ x ^ (abs v.ctx).E % (abs v.ctx).N = beNat a ∧ beNat y = x * vf ^ 2 % (abs v.ctx).N := by
  obtain ⟨T, -, t2, t3, -⟩ := invertProg_eq o g hv i ha haN
  obtain ⟨T', -, -, t3', -⟩ := invertProg_eq o g hv j hb hbN
  have h := hv.good.ctx
  have hN0 : 0 < v.ctx.N.mag := hv.key.key.Npos
  have hl : v.ctx.len = 256 := hv.key.len
  have hps := hv.good.priv
  have hbl' : v.ctx.Vi.mag = vi ∧ v.ctx.Vf.mag = vf := by
    unfold abs at hbl
    simp only at hbl
    split at hbl
    · cases hbl
    · cases hbl; exact ⟨rfl, rfl⟩
  obtain ⟨vi1, vf1, q, q1, q2, q3, q4, q5⟩ := squares h hN0 h.Vi h.vi h.Vf h.vf
  obtain ⟨vi2, vf2, p, p1, p2, p3, p4, p5⟩ := squares h hN0 q1.num q2 q3.num q4
  -- the private operation with the values that the first thread sees
  have hgood : Good { v.ctx with Vi := vi1, Vf := vf2 } := h.setBlind (RN := v.ctx.RN) q1.num p3.num q2 p4 h.RN
  have hs : (abs v.ctx).priv = some { D := v.ctx.D.mag, P := v.ctx.P.mag, Q := v.ctx.Q.mag, DP := v.ctx.DP.mag, DQ := v.ctx.DQ.mag, QP := v.ctx.QP.mag } := by
    unfold abs; simp only; rw [if_neg hps]
  have hs' : s = { D := v.ctx.D.mag, P := v.ctx.P.mag, Q := v.ctx.Q.mag, DP := v.ctx.DP.mag, DQ := v.ctx.DQ.mag, QP := v.ctx.QP.mag } := by
    have := hv.key.priv
    rw [hs] at this
    exact (Option.some.inj this).symm
  obtain ⟨RP, RQ, w, w1, -, w3⟩ := blindedPrivate_run hg hgood hN0 (fun e => hps (.inl e)) (fun e => hps (.inr (.inl e))) t2 (s := s) (by rw [hs']) (by rw [hs']) (by rw [hs']) (by rw [hs'])
    (by rw [hs']) i
  -- its value
  have hv1 : vi1.mag * vf1.mag ^ (abs v.ctx).E ≡ 1 [MOD (abs v.ctx).N] := by
    have h0 := hv.blind vi vf hbl
    rw [q1.val, q3.val, hbl'.1, hbl'.2]
    show (vi * vi % (abs v.ctx).N) * (vf * vf % (abs v.ctx).N) ^ (abs v.ctx).E ≡ 1 [MOD (abs v.ctx).N]
    refine ((Nat.mod_modEq _ _).mul ((Nat.mod_modEq _ _).pow _)).trans ?_
    have : vi * vi * (vf * vf) ^ (abs v.ctx).E = (vi * vf ^ (abs v.ctx).E) * (vi * vf ^ (abs v.ctx).E) := by rw [mul_pow]; ring
    rw [this]
    exact h0.mul h0
  obtain ⟨x, x1, x2, x3⟩ := Tdp.crtPrivate_spec hv.key.key hv1 (beNat a) (nums g i 28) (nums g (i + 1) 28)
  rw [crtPrivate_eq _ _ _ _ _ _ _ hv.key.key.Npos] at x1
  obtain ⟨z, z1, z2⟩ := Option.map_eq_some_iff.1 x1
  have hw : Tdp.crtPrivate v.ctx.N.mag s vi1.mag vf2.mag (beNat a) (nums g i 28) (nums g (i + 1) 28) = some (x * vf ^ 2 % (abs v.ctx).N) := by
    rw [crtPrivate_eq _ _ _ _ _ _ _ hN0]
    have z1' : crtVal s (beNat a * vi1.mag % v.ctx.N.mag) ((s.P - 1) * nums g i 28 + s.DP) ((s.Q - 1) * nums g (i + 1) 28 + s.DQ) = some z := z1
    rw [z1', Option.map_some, Option.some.injEq, ← z2, p3.val, q3.val, hbl'.2]
    show z * (vf * vf % (abs v.ctx).N * (vf * vf % (abs v.ctx).N) % (abs v.ctx).N) ≡ z * (vf * vf % (abs v.ctx).N) % (abs v.ctx).N * vf ^ 2 [MOD (abs v.ctx).N]
    refine ((Nat.mod_modEq _ _).mul_left z).trans ?_
    refine Nat.ModEq.trans ?_ ((Nat.mod_modEq _ _).mul_right _).symm
    rw [mul_assoc]
    refine Nat.ModEq.mul_left z (Nat.ModEq.mul_left _ ?_)
    rw [pow_two]
    exact Nat.mod_modEq _ _
  have hsz : x * vf ^ 2 % (abs v.ctx).N < 256 ^ 256 := lt_trans (Nat.mod_lt _ hv.key.key.Npos) hv.key.size
  change Same w ((Tdp.crtPrivate v.ctx.N.mag s vi1.mag vf2.mag (beNat a) (nums g i 28) (nums g (i + 1) 28)).bind fun y => Tdp.mpiWrite y v.ctx.len) at w3
  rw [hw, Option.bind_some, hl] at w3
  have hw3 : w = .ok (beBytes 256 (x * vf ^ 2 % (abs v.ctx).N)) := by
    have : Tdp.mpiWrite (x * vf ^ 2 % (abs v.ctx).N) 256 = some (beBytes 256 (x * vf ^ 2 % (abs v.ctx).N)) := by
      exact Tdp.mpiWrite_some hsz
    rw [this] at w3
    exact w3
  have hres : (blindPre g v.ctx i T vi1 >>= fun t => (crt t.1 t.1 t.2.1 t.2.2 v.ctx 0).1 >>= fun T => blindEnd v.ctx T vf2) =
      .ok (beBytes 256 (x * vf ^ 2 % (abs v.ctx).N)) := by
    have e : (blindedPrivate g T { v.ctx with Vi := vi1, Vf := vf2 } i).1 = .ok (beBytes 256 (x * vf ^ 2 % (abs v.ctx).N)) := by rw [w1, hw3]
    rw [blinded_fst] at e
    rw [← e]
    simp only [crt_res]
    rfl
  -- the interleaving
  suffices hr : ∃ m r, Reach ⟨Mem.of v.ctx, [invertProg o g v.ctx i a, invertProg o g v.ctx j b]⟩
      ⟨m, [.ret (.ok (beBytes 256 (x * vf ^ 2 % (abs v.ctx).N))), r]⟩ by
    obtain ⟨m, r, sched, hr⟩ := hr
    refine ⟨sched, beBytes 256 (x * vf ^ 2 % (abs v.ctx).N), x, by rw [hr]; rfl, x2, ?_, beNat_beBytes_of_lt hsz⟩
    have := x3
    unfold Nat.ModEq at this
    rw [this, Nat.mod_eq_of_lt haN]
  rw [t3, t3']
  cases hpre : blindPre g v.ctx i T vi1 with
  | err e => rw [hpre] at hres; cases hres
  | ub => rw [hpre] at hres; cases hres
  | ok t =>
    rw [hpre, Out.bind_ok] at hres
    have h1 := (crtProg_ok (c := v.ctx) ho t.1 t.1 t.2.1 t.2.2 0 (updated (Mem.of v.ctx) vi1 vf1)).alone (rely v.ctx) (I_of v.ctx)
    have h2 := (crtProg_caches o v.ctx t.1 t.1 t.2.1 t.2.2).alone (updated (Mem.of v.ctx) vi1 vf1)
    generalize hK : (fun r => Prog.ret (invertEnd r)) = K
    generalize hB : blindedProg o g v.ctx j T' = B
    let m5 := ((crtProg o v.ctx t.1 t.1 t.2.1 t.2.2).alone (updated (Mem.of v.ctx) vi1 vf1)).2
    refine ⟨updated m5 vi2 vf2, B >>= K, ?_⟩
    refine (updates_reach0 q _ K _ rfl rfl).trans ?_
    refine (reach_read0 (updated (Mem.of v.ctx) vi1 vf1) .vi (fun vi => (match blindPre g v.ctx i T vi with
      | .err e => .ret (.err e)
      | .ub => .ret .ub
      | .ok t => do
        let T ← crtProg o v.ctx t.1 t.1 t.2.1 t.2.2
        .read .vf fun vf => .ret (T >>= fun T => blindEnd v.ctx T vf) : Prog (Out Bytes)) >>= K) _).trans ?_
    show Reach ⟨_, [(match blindPre g v.ctx i T vi1 with
      | .err e => .ret (.err e)
      | .ub => .ret .ub
      | .ok t => do
        let T ← crtProg o v.ctx t.1 t.1 t.2.1 t.2.2
        .read .vf fun vf => .ret (T >>= fun T => blindEnd v.ctx T vf) : Prog (Out Bytes)) >>= K, _]⟩ _
    rw [hpre]
    simp only [bind_assoc]
    refine (reach_bind0 (crtProg o v.ctx t.1 t.1 t.2.1 t.2.2) _ _ (updated (Mem.of v.ctx) vi1 vf1)).trans ?_
    refine (updates_reach1 p B K _ h2.1 h2.2).trans ?_
    refine (reach_read0 (updated m5 vi2 vf2) .vf (fun vf => Prog.ret (((crtProg o v.ctx t.1 t.1 t.2.1 t.2.2).alone (updated (Mem.of v.ctx) vi1 vf1)).1 >>=
      fun T => blindEnd v.ctx T vf) >>= K) (B >>= K)).trans ?_
    rw [h1.1]
    show Reach ⟨_, [K ((crt t.1 t.1 t.2.1 t.2.2 v.ctx 0).1 >>= fun T => blindEnd v.ctx T vf2), _]⟩ _
    rw [hres, ← hK]
    simp only [invertEnd_ok (b := beBytes 256 (x * vf ^ 2 % (abs v.ctx).N)) (Tdp.beBytes_length 256 _)]
    exact Reach.refl _

/-- **C76**: which is not an inverse, for every number prime to the modulus, unless the unblinding value is one of the few whose square is 1. -/
theorem c76_wrong_false {o : Order} (ho : o.Ok) {g : Rng} (hg : Total g) {v : Inv} {s : Tdp.Priv} (hv : Ready v s) {vi vf : Nat}
    (hbl : (abs v.ctx).blind = some (vi, vf)) (hvf : vf ^ 2 % (abs v.ctx).N ≠ 1) (i j : Nat) {a b : Bytes} (ha : a.length = 256)
    (haN : beNat a < (abs v.ctx).N) (hac : Nat.gcd (beNat a) (abs v.ctx).N = 1) (hb : b.length = 256) (hbN : beNat b < (abs v.ctx).N) :
    ∃ sched y, ((Cfg.mk (Mem.of v.ctx) [invertProg o g v.ctx i a, invertProg o g v.ctx j b]).exec sched).threads[0]? = some (.ret (.ok y)) ∧
      beNat y ^ (abs v.ctx).E % (abs v.ctx).N ≠ beNat a := by
  obtain ⟨sched, y, x, h1, h2, h3, h4⟩ := c76_invert_false ho hg hv hbl i j ha haN hb hbN
  refine ⟨sched, y, h1, fun h => hvf ?_⟩
  have e1 : beNat y ^ (abs v.ctx).E ≡ x ^ (abs v.ctx).E [MOD (abs v.ctx).N] := h.trans h3.symm
  have e2 := hv.key.key.inj e1
  have e3 : x * vf ^ 2 ≡ x * 1 [MOD (abs v.ctx).N] := by
    rw [mul_one]
    refine Nat.ModEq.trans ?_ e2
    rw [h4]
    exact (Nat.mod_modEq _ _).symm
  have hxc : Nat.gcd (abs v.ctx).N x = 1 := by
    have hE : (abs v.ctx).E ≠ 0 := fun h0 => by
      have h5 := hv.key.key.expP
      have h6 := hv.key.key.primeP.two_le
      have h7 := hv.key.key.oddP
      rw [h0, zero_mul, Nat.zero_mod, Nat.mod_eq_of_lt (by omega)] at h5
      omega
    have : Nat.Coprime (x ^ (abs v.ctx).E) (abs v.ctx).N := by
      have : Nat.gcd (x ^ (abs v.ctx).E % (abs v.ctx).N) (abs v.ctx).N = 1 := by rw [h3]; exact hac
      rwa [← Nat.gcd_rec, Nat.gcd_comm] at this
    exact ((Nat.coprime_pow_left_iff (Nat.pos_of_ne_zero hE) _ _).1 this).symm
  have e4 := Nat.ModEq.cancel_left_of_coprime hxc e3
  unfold Nat.ModEq at e4
  rw [e4, Nat.mod_eq_of_lt hv.key.one_lt]

/-! ## Examples -/

theorem exOrder : Order.Ok ⟨[.sign, .size, .ptr], [.sign, .size, .ptr]⟩ := ⟨.inl rfl, fun f => by cases f <;> decide⟩

/-- A new object, two evaluations and a repeated inversion; the first two fill the cache of the modulus at the same time. -/
example : ∃ v, importPriv exElems = .ok v ∧ ∀ r, ((start ⟨[.sign, .size, .ptr], [.sign, .size, .ptr]⟩ v [.eval exMsg, .eval exMsg, .mult exMsg 3]).exec
    [0, 1, 0, 1, 2, 0, 2, 1, 0, 2, 1, 0, 2, 1]).threads[0]? = some (.ret r) → Spec exKey.N 65537 (.eval exMsg) r := by
  obtain ⟨v, v1, v2, v3, v4⟩ := exInv
  refine ⟨v, v1, fun r hr => ?_⟩
  obtain ⟨a, h1, h2⟩ := c76_values exOrder v2 [.eval exMsg, .eval exMsg, .mult exMsg 3] (by
    intro a ha
    simp only [List.mem_cons, List.not_mem_nil, or_false] at ha
    rcases ha with rfl | rfl | rfl <;> exact exMsg_msg.1) _ _ _ hr
  have e : a = .eval exMsg := (Option.some.inj h1).symm
  rw [e, v3, v4] at h2
  exact h2

example : ∃ v r, importPriv exElems = .ok v ∧ ((start ⟨[.size, .sign, .ptr], [.ptr, .size, .sign]⟩ v [.eval exMsg, .mult exMsg 3]).exec
    ((List.replicate 16 [1, 0]).flatten)).threads[1]? = some (.ret r) ∧ r = (invertMult v exMsg 3).1 := by
  obtain ⟨v, v1, v2, v3, v4⟩ := exInv
  obtain ⟨r, hr⟩ := c76_returns ⟨[.size, .sign, .ptr], [.ptr, .size, .sign]⟩ v [.eval exMsg, .mult exMsg 3] ((List.replicate 16 [1, 0]).flatten) (i := 1)
    (by show 1 < 2; decide) (by decide)
  obtain ⟨a, h1, h2⟩ := c76_results ⟨.inr rfl, fun f => by cases f <;> decide⟩ v _ _ _ _ hr
  have e : a = .mult exMsg 3 := (Option.some.inj h1).symm
  rw [e] at h2
  exact ⟨v, r, v1, hr, h2⟩

/-- The example key with the inverse of 2 as unblinding value, and with the caches that a new object has. -/
theorem exBlinded : ∃ v vi, Ready v exPriv ∧ (abs v.ctx).N = exKey.N ∧ (abs v.ctx).E = 65537 ∧ (abs v.ctx).blind = some (vi, (exKey.N + 1) / 2) ∧
    v.ctx.RN.p = [] := by
  obtain ⟨v, v1, v2, v3, v4⟩ := exInv
  obtain ⟨A, -, a1, a2⟩ := read_U U.null.v (b := beBytes 256 (2 ^ 65537 % exKey.N)) (by rw [Tdp.beBytes_length]; decide)
  obtain ⟨B, -, b1, b2⟩ := read_U U.null.v (b := beBytes 256 ((exKey.N + 1) / 2)) (by rw [Tdp.beBytes_length]; decide)
  rw [Tdp.beBytes_length] at a1 b1
  rw [beNat_beBytes_of_lt (show 2 ^ 65537 % exKey.N < 256 ^ 256 by decide +kernel)] at a1
  rw [beNat_beBytes_of_lt (show (exKey.N + 1) / 2 < 256 ^ 256 by decide +kernel)] at b1
  have hc : CacheOk v.ctx.N (some .null) := fun m hm hp => by cases hm; exact absurd rfl hp
  generalize hn1 : 2 ^ 65537 % exKey.N = n1 at a1
  generalize hn2 : (exKey.N + 1) / 2 = n2 at b1
  have la : limbs A.mag ≤ 301 := by rw [a1.val]; exact le_trans (limbs_U a1) (by decide)
  have lb : limbs B.mag ≤ 301 := by rw [b1.val]; exact le_trans (limbs_U b1) (by decide)
  have hg : Good { v.ctx with Vi := A, Vf := B, RN := .null } := v2.good.ctx.setBlind (a1.mono (by decide)).num (b1.mono (by decide)).num
    la lb hc
  have hb : (abs { v.ctx with Vi := A, Vf := B, RN := .null }).blind = some (A.mag, n2) := by
    unfold abs; simp only; rw [if_neg b2, b1.val]
  refine ⟨{ v with ctx := { v.ctx with Vi := A, Vf := B, RN := .null } }, A.mag, ⟨⟨hg, v2.good.p1, v2.good.q1, v2.good.priv⟩, ?_, ?_⟩, v3, v4, hb, rfl⟩
  · exact ⟨v2.key.priv, v2.key.key, v2.key.len, v2.key.size⟩
  · intro vi vf h
    have h := hb.symm.trans h
    cases h
    show A.mag * n2 ^ (abs v.ctx).E ≡ 1 [MOD (abs v.ctx).N]
    rw [v3, v4, a1.val, ← hn1]
    refine ((Nat.mod_modEq _ _).mul_right _).trans ?_
    rw [← mul_pow]
    have : 2 * n2 ≡ 1 [MOD exKey.N] := by
      rw [← hn2]
      show 2 * ((exKey.N + 1) / 2) % exKey.N = 1 % exKey.N
      decide +kernel
    have h := this.pow 65537
    rwa [one_pow] at h

/-- Threads that evaluate on an object that has evaluated once. -/
example : ∃ v c, Ready v exPriv ∧ c = (evalArray v.ctx exMsg).2 ∧ ∀ sched, ¬ Racy ((start ⟨[.ptr, .sign, .size], [.sign, .size, .ptr]⟩ { v with ctx := c }
    [.eval exMsg, .eval exMsg]).exec sched) := by
  obtain ⟨v, _, v1, _⟩ := exBlinded
  refine ⟨v, _, v1, rfl, fun sched => (c76_no_race _ { v with ctx := (evalArray v.ctx exMsg).2 } [.eval exMsg, .eval exMsg] (fun a ha => ?_) sched).2⟩
  simp only [List.mem_cons, List.not_mem_nil, or_false, or_self] at ha
  subst ha
  exact (c76_fills v1 exMsg_msg.1).1

example : ∃ v, Ready v exPriv ∧ Racy ((start ⟨[.sign, .size, .ptr], [.sign, .size, .ptr]⟩ v [.eval exMsg, .eval exMsg]).exec [0, 1]) := by
  obtain ⟨v, _, v1, _, _, _, v2⟩ := exBlinded
  exact ⟨v, v1, c76_first_false (by simp) v1 v2 exMsg_msg.1 exMsg_msg.1⟩

example : ∃ v sched, Ready v exPriv ∧ ((start ⟨[.ptr, .sign, .size], [.sign, .size, .ptr]⟩ v [.eval exMsg, .eval exMsg]).exec sched).threads[1]? = some (.ret .ub) := by
  obtain ⟨v, _, v1, _, _, _, v2⟩ := exBlinded
  obtain ⟨sched, h⟩ := c76_torn_false (o := ⟨[.ptr, .sign, .size], [.sign, .size, .ptr]⟩) rfl ⟨by decide, by decide⟩ v1 v2 exMsg_msg.1 exMsg_msg.1
  exact ⟨v, sched, v1, h⟩

/-- The number 1. -/
def exOne : Bytes := beBytes 256 1

theorem exOne_nat : beNat exOne = 1 := beNat_beBytes_of_lt (by decide +kernel)

example : ∃ v, Ready v exPriv ∧ ((invertProg ⟨[.sign, .size, .ptr], [.sign, .size, .ptr]⟩ (constRng 2) v.ctx 0 exOne).alone (Mem.of v.ctx)).1 =
    (invertBuf (constRng 2) v.ctx 0 exOne).1 := by
  obtain ⟨v, _, v1, v2, _, v3, _⟩ := exBlinded
  refine ⟨v, v1, c76_alone exOrder _ v1 (fun e => ?_) 0 (Tdp.beBytes_length 256 1) (by rw [exOne_nat, v2]; decide +kernel)⟩
  unfold abs at v3
  simp only at v3
  rw [if_pos e] at v3
  cases v3

example : ∃ v, Ready v exPriv ∧ Racy ((Cfg.mk (Mem.of v.ctx) [invertProg ⟨[.sign, .size, .ptr], [.sign, .size, .ptr]⟩ (constRng 2) v.ctx 0 exOne,
    invertProg ⟨[.sign, .size, .ptr], [.sign, .size, .ptr]⟩ (constRng 2) v.ctx 0 exMsg]).exec [0]) := by
  obtain ⟨v, _, v1, v2, _⟩ := exBlinded
  exact ⟨v, v1, c76_invert_race _ _ v1 0 0 (Tdp.beBytes_length 256 1) (by rw [exOne_nat, v2]; decide +kernel) exMsg_msg.1 (by rw [v2]; exact exMsg_msg.2)⟩

/-- An inversion of 1 disturbed by another one does not give 1, nor any other root of 1. -/
example : ∃ v sched y, Ready v exPriv ∧ ((Cfg.mk (Mem.of v.ctx) [invertProg ⟨[.sign, .size, .ptr], [.sign, .size, .ptr]⟩ (constRng 2) v.ctx 0 exOne,
    invertProg ⟨[.sign, .size, .ptr], [.sign, .size, .ptr]⟩ (constRng 2) v.ctx 0 exMsg]).exec sched).threads[0]? = some (.ret (.ok y)) ∧
      beNat y ^ 65537 % exKey.N ≠ 1 := by
  obtain ⟨v, vi, v1, v2, v3, v4, _⟩ := exBlinded
  obtain ⟨sched, y, h1, h2⟩ := c76_wrong_false exOrder (total_const 2) v1 v4 (by rw [v2]; decide +kernel) 0 0 (Tdp.beBytes_length 256 1)
    (by rw [show beBytes 256 1 = exOne from rfl, exOne_nat, v2]; decide +kernel) (by rw [show beBytes 256 1 = exOne from rfl, exOne_nat, Nat.gcd_one_left]) exMsg_msg.1 (by rw [v2]; exact exMsg_msg.2)
  refine ⟨v, sched, y, v1, h1, ?_⟩
  rw [v3, v2, show beBytes 256 1 = exOne from rfl, exOne_nat] at h2
  exact h2

end Verif.Rsa.Threads
