import Verif.Key.LemmasFail

/-!
# C103: keys when memory cannot be had or cannot be protected
-/

namespace Verif.Key.Fail

open Verif Verif.Key

/-- A state that some history leads to, on a system that can protect pages (with memory locking). -/
def Reach (N : Nat) (st : St) : Prop := ∃ xs rs, (∀ x ∈ xs, x.2.pre N) ∧ run N true true St.init xs = some (st, rs)

/-- What a history guarantees. -/
structure FRun (N : Nat) (st : St) (xs : List (Luck × Op)) (st' : St) (rs : List (Outcome × Bytes)) : Prop where
  inv : Inv true st'
  sim : ∀ a, Sim st a → ∃ a', Spec.run N true a xs = some (a', rs) ∧ Sim st' a'
  noLeak : (∀ x ∈ xs, ¬ Lost x.1 x.2) → NoLeak st → NoLeak st'
  stray : ∀ c d, Stray st c d → Stray st' c d

theorem frun_ok {N : Nat} : ∀ (xs : List (Luck × Op)) {st st' : St} {rs : List (Outcome × Bytes)}, Inv true st → (∀ x ∈ xs, x.2.pre N) →
    run N true true st xs = some (st', rs) → FRun N st xs st' rs
  | [], st, st', rs, h, _, hr => by
    simp only [run, Option.some.injEq, Prod.mk.injEq] at hr
    obtain ⟨rfl, rfl⟩ := hr
    exact ⟨h, fun a hs => ⟨a, rfl, hs⟩, fun _ hn => hn, fun _ _ h => h⟩
  | x :: xs, st, st', rs, h, hpre, hr => by
    simp only [run] at hr
    cases h1 : step N true true x.1 st x.2 with
    | none => rw [h1] at hr; cases hr
    | some y =>
      obtain ⟨st1, out, buf⟩ := y
      rw [h1] at hr
      simp only at hr
      cases h2 : run N true true st1 xs with
      | none => rw [h2] at hr; cases hr
      | some z =>
        obtain ⟨st2, rs2⟩ := z
        rw [h2] at hr
        simp only [Option.some.injEq, Prod.mk.injEq] at hr
        obtain ⟨rfl, rfl⟩ := hr
        have hok := fstep_ok h (hpre x List.mem_cons_self) h1
        have hrest := frun_ok xs hok.inv (fun y hy => hpre y (List.mem_cons_of_mem _ hy)) h2
        refine ⟨hrest.inv, ?_, ?_, fun c d hst => hrest.stray c d (stray_step hst h1)⟩
        · intro a hs
          obtain ⟨a1, e1, s1⟩ := hok.sim a hs
          obtain ⟨a2, e2, s2⟩ := hrest.sim a1 s1
          refine ⟨a2, ?_, s2⟩
          simp only [Spec.run, Bool.not_true, Bool.or_false, e1, e2]
        · intro hl hn
          exact hrest.noLeak (fun y hy => hl y (List.mem_cons_of_mem _ hy)) (hok.noLeak (hl x List.mem_cons_self) hn)

theorem reach_inv {N : Nat} {st : St} (h : Reach N st) : Inv true st := by
  obtain ⟨xs, rs, hpre, hr⟩ := h
  exact (frun_ok xs (inv_init true) hpre hr).inv

/-- Histories on a system that cannot protect pages. -/
theorem run_blur {N : Nat} : ∀ (xs : List (Luck × Op)) {st : St}, Inv true st → (∀ x ∈ xs, x.2.pre N) →
    run N true false (blur st) xs = (run N true true st (xs.map fun x => (⟨x.1.alloc, true⟩, x.2))).map fun y => (blur y.1, y.2)
  | [], st, _, _ => rfl
  | x :: xs, st, h, hpre => by
    simp only [run, List.map_cons]
    rw [step_blur x.1.alloc x.1.prot h x.2]
    cases h1 : step N true true ⟨x.1.alloc, true⟩ st x.2 with
    | none => rfl
    | some y =>
      obtain ⟨st1, out, buf⟩ := y
      simp only [Option.map_some, blurOut]
      have hok := fstep_ok h (hpre x List.mem_cons_self) h1
      rw [run_blur xs hok.inv fun y hy => hpre y (List.mem_cons_of_mem _ hy)]
      cases run N true true st1 (xs.map fun x => (⟨x.1.alloc, true⟩, x.2)) <;> rfl

theorem spec_blur {N : Nat} : ∀ (xs : List (Luck × Op)) (a : Key.Spec.St),
    Spec.run N false a xs = Spec.run N true a (xs.map fun x => ((⟨x.1.alloc, true⟩ : Luck), x.2))
  | [], _ => rfl
  | x :: xs, a => by
    simp only [Spec.run, List.map_cons, Bool.not_false, Bool.or_true, Bool.true_or]
    cases Spec.step N x.1.alloc true a x.2 with
    | none => rfl
    | some y => simp only [spec_blur xs y.1]

/-- **C103**: whatever allocations fail and whenever the system refuses to protect memory - or cannot do so at all -, every history of key operations behaves as the value
semantics with failures: an operation works or throws and leaves every key as it was. -/
theorem c103_values {N : Nat} {pp : Bool} {xs : List (Luck × Op)} {st : St} {rs : List (Outcome × Bytes)} (hpre : ∀ x ∈ xs, x.2.pre N)
    (hr : run N true pp St.init xs = some (st, rs)) :
    ∃ a, Spec.run N pp [] xs = some (a, rs) ∧
      ∀ i, Key.Spec.obj a i = (st.obj i).map fun o => ⟨o.content.bind fun c => (st.heap[c]?).map (·.data), o.locked⟩ := by
  cases pp with
  | true =>
    obtain ⟨a, h1, h2⟩ := (frun_ok xs (inv_init true) hpre hr).sim [] sim_init
    exact ⟨a, h1, h2.objs⟩
  | false =>
    have hb := run_blur xs (inv_init true) hpre
    rw [show blur St.init = St.init from rfl, hr] at hb
    cases h1 : run N true true St.init (xs.map fun x => ((⟨x.1.alloc, true⟩ : Luck), x.2)) with
    | none => rw [h1] at hb; cases hb
    | some y =>
      rw [h1] at hb
      simp only [Option.map_some, Option.some.injEq, Prod.mk.injEq] at hb
      obtain ⟨rfl, rfl⟩ := hb
      have hpre' : ∀ x ∈ xs.map (fun x => ((⟨x.1.alloc, true⟩ : Luck), x.2)), x.2.pre N := by
        intro x hx
        obtain ⟨z, hz, rfl⟩ := List.mem_map.1 hx
        exact hpre z hz
      obtain ⟨a, h2, h3⟩ := (frun_ok _ (inv_init true) hpre' h1).sim [] sim_init
      refine ⟨a, by rw [spec_blur]; exact h2, fun i => ?_⟩
      rw [h3.objs i]
      show _ = (y.1.obj i).map _
      congr 1
      funext o
      unfold absObj blur
      simp only [List.getElem?_map, Option.map_map, Key.Spec.Obj.mk.injEq, and_true]
      congr 1
      funext c
      congr 1
      funext cell
      simp only [Function.comp, bare]
      split <;> rfl

theorem spec_step_safe {N : Nat} {alloc prot : Bool} {a a' : Key.Spec.St} {op : Op} {out : Outcome} {buf : Bytes}
    (h : Spec.step N alloc prot a op = some (a', out, buf)) : out ≠ .ret .ub ∧ (out = .badAlloc ∨ (∃ e, out = .ret (.exc e)) → ∀ i, Key.Spec.obj a' i = Key.Spec.obj a i) := by
  unfold Spec.step at h
  cases h1 : Key.Spec.step N a op with
  | none => rw [h1] at h; cases h
  | some y =>
    obtain ⟨a1, r⟩ := y
    rw [h1] at h
    simp only at h
    split at h
    · simp only [Option.some.injEq, Prod.mk.injEq] at h
      obtain ⟨rfl, rfl, _⟩ := h
      exact ⟨by simp, fun _ _ => rfl⟩
    · split at h
      · simp only [Option.some.injEq, Prod.mk.injEq] at h
        obtain ⟨rfl, rfl, _⟩ := h
        exact ⟨by simp, fun _ _ => rfl⟩
      · simp only [Option.some.injEq, Prod.mk.injEq] at h
        obtain ⟨rfl, rfl, _⟩ := h
        cases op with
        | newRandom r junk =>
          injection h1 with h1; injection h1 with _ h1; subst h1
          simp [Spec.result]
        | newFrom b =>
          cases b with
          | none =>
            injection h1 with h1; injection h1 with h2 h1; subst h1; subst h2
            exact ⟨by simp [Spec.result], fun _ _ => rfl⟩
          | some b => simp [Spec.result]
        | newCallback fill junk =>
          cases fill with
          | none =>
            injection h1 with h1; injection h1 with h2 h1; subst h1; subst h2
            exact ⟨by simp [Spec.result], fun _ _ => rfl⟩
          | some b =>
            injection h1 with h1; injection h1 with _ h1; subst h1
            simp [Spec.result]
        | moveAssign d s =>
          simp only [Key.Spec.step] at h1
          split at h1
          · injection h1 with h1; injection h1 with _ h1; subst h1
            simp [Spec.result]
          · cases h1
        | readUnlock i =>
          simp only [Key.Spec.step, Option.map_eq_some_iff] at h1
          obtain ⟨o, ho, h2⟩ := h1
          injection h2 with h2 h3
          subst h2; subst h3
          simp only [Spec.result, Key.Spec.read]
          cases hv : o.value with
          | none => exact ⟨by simp, fun _ _ => rfl⟩
          | some v => simp
        | readData i =>
          simp only [Key.Spec.step, Option.map_eq_some_iff] at h1
          obtain ⟨o, ho, h2⟩ := h1
          injection h2 with h2 h3
          subst h2; subst h3
          refine ⟨?_, fun _ _ => rfl⟩
          simp only [Spec.result, Key.Spec.read]
          cases hv : o.value <;> simp
          split <;> simp
        | serialize i =>
          simp only [Key.Spec.step, Option.map_eq_some_iff] at h1
          obtain ⟨o, ho, h2⟩ := h1
          injection h2 with h2 h3
          subst h2; subst h3
          refine ⟨?_, fun _ _ => rfl⟩
          simp only [Spec.result, Key.Spec.read]
          cases hv : o.value <;> simp
          split <;> simp
        | _ =>
          simp only [Key.Spec.step, Option.map_eq_some_iff] at h1
          obtain ⟨o, ho, h2⟩ := h1
          injection h2 with h2 h3
          subst h3
          simp [Spec.result]

theorem spec_run_safe {N : Nat} {pp : Bool} : ∀ (xs : List (Luck × Op)) {a a' : Key.Spec.St} {rs : List (Outcome × Bytes)},
    Spec.run N pp a xs = some (a', rs) → ∀ r ∈ rs, r.1 ≠ .ret .ub
  | [], a, a', rs, h => by
    simp only [Spec.run, Option.some.injEq, Prod.mk.injEq] at h
    obtain ⟨_, rfl⟩ := h
    intro r hr
    cases hr
  | x :: xs, a, a', rs, h => by
    simp only [Spec.run] at h
    split at h
    · cases h
    · rename_i a1 r1 h1
      split at h
      · cases h
      · rename_i a2 rs2 h2
        simp only [Option.some.injEq, Prod.mk.injEq] at h
        obtain ⟨_, rfl⟩ := h
        intro r hr
        rcases List.mem_cons.1 hr with hr | hr
        · subst hr
          exact (spec_step_safe (out := r.1) (buf := r.2) h1).1
        · exact spec_run_safe xs h2 r hr

/-- **C103**: no operation is undefined, whatever fails: no double free, no use of memory that was freed, of null or of memory that is protected. -/
theorem c103_safe {N : Nat} {pp : Bool} {xs : List (Luck × Op)} {st : St} {rs : List (Outcome × Bytes)} (hpre : ∀ x ∈ xs, x.2.pre N)
    (hr : run N true pp St.init xs = some (st, rs)) : ∀ r ∈ rs, r.1 ≠ .ret .ub := by
  obtain ⟨a, h, _⟩ := c103_values hpre hr
  exact spec_run_safe xs h

/-- **C103**: an operation that throws leaves the value and the flag of every key as they were. -/
theorem c103_strong {N : Nat} {st st' : St} (hre : Reach N st) {l : Luck} {op : Op} (hpre : op.pre N) {out : Outcome} {buf : Bytes}
    (h : step N true true l st op = some (st', out, buf)) (he : out = .badAlloc ∨ ∃ e, out = .ret (.exc e)) (i : Nat) :
    ((st'.obj i).map fun o => ((o.content.bind fun c => (st'.heap[c]?).map (·.data)), o.locked)) =
      (st.obj i).map fun o => ((o.content.bind fun c => (st.heap[c]?).map (·.data)), o.locked) := by
  obtain ⟨xs, rs, hp, hr⟩ := hre
  have hrun := frun_ok xs (inv_init true) hp hr
  obtain ⟨a, _, hs⟩ := hrun.sim [] sim_init
  obtain ⟨a', h1, hs'⟩ := (fstep_ok hrun.inv hpre h).sim a hs
  have h2 := (spec_step_safe h1).2 he i
  rw [hs'.objs i, hs.objs i] at h2
  have := congrArg (Option.map fun o : Key.Spec.Obj => (o.value, o.locked)) h2
  rw [Option.map_map, Option.map_map] at this
  exact this

/-- **C103**: on a system that can protect pages, the memory of a key is inaccessible exactly when the key says that it is locked - also after failures. -/
theorem c103_protected {N : Nat} {st : St} (hre : Reach N st) {i : Nat} {o : Obj} {c : Nat} (ho : st.obj i = some o) (hc : o.content = some c) :
    ∃ cell, st.heap[c]? = some cell ∧ cell.frees = 0 ∧ (o.locked = true ↔ cell.prot = .noaccess) := by
  obtain ⟨cell, h1, h2, h3⟩ := (reach_inv hre).own i o c ho hc
  exact ⟨cell, h1, h2, h3⟩

/-- **C103**: no two keys share a buffer, and no buffer is released twice, whatever failed before. -/
theorem c103_owner {N : Nat} {st : St} (hre : Reach N st) :
    (∀ i j oi oj c, st.obj i = some oi → st.obj j = some oj → oi.content = some c → oj.content = some c → i = j) ∧
    ∀ (c : Nat) cell, st.heap[c]? = some cell → cell.frees ≤ 1 :=
  ⟨(reach_inv hre).uniq, fun c cell h => ((reach_inv hre).freed c cell h).1⟩

/-- **C103**, false: where the system cannot protect pages, a key says that it is locked although its memory can be read and written. -/
theorem c103_enosys_false : ∃ xs st rs, (∀ x ∈ xs, x.2.pre 4) ∧ run 4 true false St.init xs = some (st, rs) ∧
    st.obj 0 = some ⟨some 0, true⟩ ∧ st.heap[0]? = some ⟨[1, 2, 3, 4], .rw, 0⟩ :=
  ⟨[(⟨true, true⟩, .newFrom (some [1, 2, 3, 4]))], _, _, by simp [Op.pre], rfl, rfl, rfl⟩

/-- **C103**: once every object is destroyed or empty, every buffer was wiped and released exactly once, although allocations failed and the system refused to lock
and unlock keys.  Partial: no constructor throws after it allocated a buffer (see `c103_lost_false`). -/
theorem c103_released_partial {N : Nat} {xs : List (Luck × Op)} {st : St} {rs : List (Outcome × Bytes)} (hpre : ∀ x ∈ xs, x.2.pre N)
    (hl : ∀ x ∈ xs, ¬ Lost x.1 x.2) (hr : run N true true St.init xs = some (st, rs)) (hend : ∀ i o, st.obj i = some o → o.content = none) :
    ∀ cell ∈ st.heap, cell.frees = 1 ∧ ∀ b ∈ cell.data, b = 0 := by
  have hrun := frun_ok xs (inv_init true) hpre hr
  have hnl := hrun.noLeak hl (by intro c cell h; simp [St.init] at h)
  intro cell hcell
  obtain ⟨c, hc⟩ := List.getElem?_of_mem hcell
  have h1 := hrun.inv.freed c cell hc
  have h2 : cell.frees ≠ 0 := by
    intro h0
    obtain ⟨i, o, h3, h4⟩ := hnl c cell hc h0
    rw [hend i o h3] at h4; cases h4
  have h3 : cell.frees = 1 := by omega
  refine ⟨h3, ?_⟩
  intro b hb
  rw [h1.2 h3] at hb
  exact (List.mem_replicate.1 hb).2

/-- **C103**, false: if the system refuses to protect the memory of a new key, the constructor throws, the caller's buffer is wiped, and the key stays in memory that
can be read and written, belongs to nobody, and is never wiped or released, whatever happens later. -/
theorem c103_lost_false {N : Nat} {st st' : St} (hre : Reach N st) {b : Bytes} (hb : N ≤ b.length) {xs : List (Luck × Op)} (hpre : ∀ x ∈ xs, x.2.pre N)
    {rs : List (Outcome × Bytes)} (hr : run N true true st ((⟨true, false⟩, .newFrom (some b)) :: xs) = some (st', rs)) :
    rs.head? = some (.ret (.exc .runtimeError), List.replicate N 0 ++ b.drop N) ∧
    st'.heap[st.heap.length]? = some ⟨b.take N, .rw, 0⟩ ∧ ∀ i o, st'.obj i = some o → o.content ≠ some st.heap.length := by
  have hinv := reach_inv hre
  have h1 : step N true true ⟨true, false⟩ st (.newFrom (some b)) =
      some (st.alloc (b.take N) .rw, .ret (.exc .runtimeError), List.replicate N 0 ++ b.drop N) := by
    simp only [step, if_true]
    rw [if_neg (by omega)]
    rfl
  simp only [run, h1] at hr
  cases h2 : run N true true (st.alloc (b.take N) .rw) xs with
  | none => rw [h2] at hr; cases hr
  | some y =>
    rw [h2] at hr
    simp only [Option.some.injEq, Prod.mk.injEq] at hr
    obtain ⟨rfl, rfl⟩ := hr
    have := (frun_ok xs (inv_alloc hinv _ _) hpre h2).stray _ _ (stray_alloc (b.take N) hinv)
    exact ⟨rfl, this.1, this.2⟩

/-- **C103**: without failures the operations are those of C20. -/
theorem c103_lucky {N : Nat} (st : St) (op : Op) (hpre : op.pre N) :
    (step N true true ⟨true, true⟩ st op).map (fun x => (x.1, x.2.1)) = (Key.step N true st op).map fun x => (x.1, .ret (Spec.result x.2 op)) := by
  cases op with
  | newRandom r junk => simp only [step, if_true, ctor_good]; rfl
  | newFrom b =>
    cases b with
    | none => rfl
    | some b =>
      have hb : N ≤ b.length := hpre
      simp only [step, Key.step, if_true, ctor_good]
      rw [if_neg (by omega), if_neg (by omega)]
      rfl
  | newCallback fill junk =>
    cases fill with
    | none => rfl
    | some d => simp only [step, if_true, ctor_good]; rfl
  | lock i => simp only [step, Key.step, Option.map_map]; rfl
  | unlock i => simp only [step, Key.step, Option.map_map]; rfl
  | readUnlock i => simp only [step, Key.step, Option.map_map]; rfl
  | _ => simp only [step, Option.map_map]; rfl

/-! ## Examples -/

/-- A key that cannot be allocated, one that is imported, unlocked with a refusal before, moved, locked with a refusal before, and erased. -/
def someHistory : List (Luck × Op) :=
  [(⟨false, true⟩, .newRandom [9, 9, 9, 9] []), (⟨true, true⟩, .newFrom (some [1, 2, 3, 4, 5])), (⟨true, false⟩, .readUnlock 0), (⟨true, true⟩, .readUnlock 0),
   (⟨false, false⟩, .moveCtor 0), (⟨true, false⟩, .lock 1), (⟨true, true⟩, .readData 1), (⟨true, true⟩, .lock 1), (⟨true, true⟩, .serialize 1),
   (⟨false, false⟩, .destroy 1), (⟨true, true⟩, .destroy 0)]

theorem someHistory_pre : ∀ x ∈ someHistory, x.2.pre 4 := by
  intro x hx
  simp only [someHistory, List.mem_cons, List.not_mem_nil, or_false] at hx
  rcases hx with h|h|h|h|h|h|h|h|h|h|h <;> subst h <;> simp [Op.pre]

theorem someHistory_lost : ∀ x ∈ someHistory, ¬ Lost x.1 x.2 := by
  intro x hx
  simp only [someHistory, List.mem_cons, List.not_mem_nil, or_false] at hx
  rcases hx with h|h|h|h|h|h|h|h|h|h|h <;> subst h <;> simp [Lost]

example : ∃ st rs, run 4 true true St.init someHistory = some (st, rs) ∧
    rs.map (·.1) = [.badAlloc, .ret (.ok []), .ret (.exc .runtimeError), .ret (.ok [1, 2, 3, 4]), .ret (.ok []), .ret (.exc .runtimeError), .ret (.ok [1, 2, 3, 4]),
      .ret (.ok []), .ret (.exc .runtimeError), .ret (.ok []), .ret (.ok [])] ∧
    ∀ cell ∈ st.heap, cell.frees = 1 ∧ ∀ b ∈ cell.data, b = 0 := by
  refine ⟨⟨[⟨[0, 0, 0, 0], .noaccess, 1⟩], [none, none]⟩, _, rfl, rfl, ?_⟩
  exact c103_released_partial someHistory_pre someHistory_lost rfl (by
    intro i o h
    have : ∀ i, St.obj ⟨[⟨[0, 0, 0, 0], .noaccess, 1⟩], [none, none]⟩ i = none := by
      intro i
      match i with
      | 0 => rfl
      | 1 => rfl
      | _ + 2 => rfl
    rw [this] at h
    cases h)

example : ∃ st, st.heap[0]? = some ⟨[1, 2, 3, 4], .rw, 0⟩ ∧ st.objs = [none] ∧
    ∃ rs, run 4 true true St.init [(⟨true, false⟩, .newFrom (some [1, 2, 3, 4])), (⟨true, true⟩, .newRandom [5, 6, 7, 8] []), (⟨true, true⟩, .destroy 0)] = some (st, rs) ∧
    rs.head? = some (.ret (.exc .runtimeError), List.replicate 4 0 ++ [1, 2, 3, 4].drop 4) := by
  refine ⟨⟨[⟨[1, 2, 3, 4], .rw, 0⟩, ⟨[0, 0, 0, 0], .noaccess, 1⟩], [none]⟩, rfl, rfl, _, rfl, ?_⟩
  exact (c103_lost_false ⟨[], [], by simp, rfl⟩ (by decide) (xs := [(⟨true, true⟩, .newRandom [5, 6, 7, 8] []), (⟨true, true⟩, .destroy 0)]) (by simp [Op.pre]) rfl).1

end Verif.Key.Fail
