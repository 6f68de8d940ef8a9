import Verif.Key.Lemmas

/-! Every step keeps the invariant and simulates the value semantics. -/

namespace Verif.Key

open Verif

theorem step_ok {N : Nat} {ml : Bool} {st : St} (h : Inv ml st) {op : Op} (hpre : op.pre N) {st' : St} {r : Res Bytes}
    (hstep : step N ml st op = some (st', r)) : StepOk N ml st op st' r := by
  cases op with
  | newRandom rb junk =>
    simp only [step, Option.some.injEq, Prod.mk.injEq] at hstep
    obtain ⟨rfl, rfl⟩ := hstep
    refine ⟨inv_fresh h _, fun _ hl => noLeak_fresh hl _, ?_⟩
    intro hml a hs
    subst hml
    exact ⟨_, rfl, sim_fresh h hs rb⟩
  | newFrom buf =>
    cases buf with
    | none =>
      simp only [step, Option.some.injEq, Prod.mk.injEq] at hstep
      obtain ⟨rfl, rfl⟩ := hstep
      exact ⟨h, fun _ hl => hl, fun _ a hs => ⟨a, rfl, hs⟩⟩
    | some b =>
      have hb : N ≤ b.length := hpre
      simp only [step] at hstep
      rw [if_neg (by omega)] at hstep
      simp only [Option.some.injEq, Prod.mk.injEq] at hstep
      obtain ⟨rfl, rfl⟩ := hstep
      refine ⟨inv_fresh h _, fun _ hl => noLeak_fresh hl _, ?_⟩
      intro hml a hs
      subst hml
      exact ⟨_, rfl, sim_fresh h hs _⟩
  | newCallback fill junk =>
    cases fill with
    | none =>
      simp only [step, Option.some.injEq, Prod.mk.injEq] at hstep
      obtain ⟨rfl, rfl⟩ := hstep
      exact ⟨inv_alloc h _ _, fun hn => absurd hn id, fun _ a hs => ⟨a, rfl, sim_alloc h hs _ _⟩⟩
    | some d =>
      simp only [step, Option.some.injEq, Prod.mk.injEq] at hstep
      obtain ⟨rfl, rfl⟩ := hstep
      refine ⟨inv_fresh h _, fun _ hl => noLeak_fresh hl _, ?_⟩
      intro hml a hs
      subst hml
      exact ⟨_, rfl, sim_fresh h hs _⟩
  | moveCtor s =>
    simp only [step] at hstep
    cases ho : st.obj s with
    | none => rw [ho] at hstep; cases hstep
    | some o =>
      rw [ho] at hstep
      simp only [Option.some.injEq, Prod.mk.injEq] at hstep
      obtain ⟨rfl, rfl⟩ := hstep
      have hsl := obj_lt ho
      rw [moveCtor_eq st s o hsl]
      have ho' : (room st).obj s = some o := by rw [obj_room]; exact ho
      have hd : st.objs.length < (room st).objs.length := by simp [room]
      have hde : ∀ od, (room st).obj st.objs.length = some od → od.content = none := by
        intro od hod
        rw [obj_room] at hod
        exact absurd (obj_lt hod) (Nat.lt_irrefl _)
      refine ⟨inv_moved (inv_room h) hd ho', fun _ hl => noLeak_moved (noLeak_room hl) (by omega) hd ho' hde, ?_⟩
      intro _ a hs
      have hsim := sim_moved (sim_room hs) hd ho'
      refine ⟨a.set s (some .empty) ++ [some (absObj st.heap o)], ?_, ?_⟩
      · simp only [Spec.step, sobj_some hs ho, Option.map_some]
      · rw [← hs.len] at hsim
        rw [set_room _ _ (by rw [hs.len]; exact hsl)] at hsim
        rw [← hs.len]
        exact hsim
  | moveAssign d s =>
    simp only [step] at hstep
    cases hod : st.obj d with
    | none => rw [hod] at hstep; cases hstep
    | some od =>
      cases hos : st.obj s with
      | none => rw [hod, hos] at hstep; cases hstep
      | some os =>
        rw [hod, hos] at hstep
        simp only at hstep
        by_cases hds : d = s
        · rw [if_pos hds] at hstep
          simp only [Option.some.injEq, Prod.mk.injEq] at hstep
          obtain ⟨rfl, rfl⟩ := hstep
          refine ⟨h, fun _ hl => hl, fun _ a hs => ⟨a, ?_, hs⟩⟩
          simp only [Spec.step, sobj_some hs hod, sobj_some hs hos, if_pos hds]
        · rw [if_neg hds] at hstep
          have hdl := obj_lt hod
          cases hc : od.content with
          | none =>
            rw [hc] at hstep
            simp only [Res.bind_ok, fin, Option.some.injEq, Prod.mk.injEq] at hstep
            obtain ⟨rfl, rfl⟩ := hstep
            have hde : ∀ od', st.obj d = some od' → od'.content = none := by
              intro od' h'; rw [hod] at h'; injection h' with h'; subst h'; exact hc
            refine ⟨inv_moved h hdl hos, fun _ hl => noLeak_moved hl hds hdl hos hde, ?_⟩
            intro _ a hs
            refine ⟨_, ?_, sim_moved hs hdl hos⟩
            simp only [Spec.step, sobj_some hs hod, sobj_some hs hos, if_neg hds]
          | some c =>
            rw [hc] at hstep
            obtain ⟨cell, hcell, hfree⟩ := free_ok h hod hc
            simp only [hfree, Res.bind_ok, fin, Option.some.injEq, Prod.mk.injEq] at hstep
            obtain ⟨rfl, rfl⟩ := hstep
            have hcl := (List.getElem?_eq_some_iff.1 hcell).1
            have e : (St.setObj { st with heap := st.heap.set c ⟨List.replicate cell.data.length 0, .noaccess, 1⟩ } d
                (some os)).setObj s (some ⟨none, true⟩) =
                moved (afterFree st c cell.data.length d (some ⟨none, true⟩)) d s os := by
              simp [moved, afterFree, St.setObj, List.set_set]
            rw [e]
            have hdl' : d < (afterFree st c cell.data.length d (some ⟨none, true⟩)).objs.length := by
              simp [afterFree, St.setObj, hdl]
            have hos' : (afterFree st c cell.data.length d (some ⟨none, true⟩)).obj s = some os := by
              rw [obj_afterFree _ _ _ _ _ hdl, if_neg hds]; exact hos
            have hde : ∀ od', (afterFree st c cell.data.length d (some ⟨none, true⟩)).obj d = some od' →
                od'.content = none := by
              intro od' h'
              rw [obj_afterFree _ _ _ _ _ hdl, if_pos rfl] at h'
              injection h' with h'; subst h'; rfl
            have hinv := inv_afterFree h hod hc cell.data.length (some ⟨none, true⟩) (Or.inr rfl)
            refine ⟨inv_moved hinv hdl' hos', fun _ hl => noLeak_moved (noLeak_afterFree hl hod hc _ _ hcl) hds hdl' hos' hde, ?_⟩
            intro _ a hs
            have hsim := sim_afterFree h hs hod hc cell.data.length (some ⟨none, true⟩) (some .empty) (Or.inr ⟨rfl, rfl⟩)
            have hsim2 := sim_moved hsim hdl' hos'
            have habs : absObj (afterFree st c cell.data.length d (some ⟨none, true⟩)).heap os = absObj st.heap os := by
              have h1 := sobj_some hsim hos'
              have h2 := sobj_some hs hos
              rw [sobj_set _ _ _ _ (by rw [hs.len]; exact hdl), if_neg hds, h2] at h1
              injection h1 with h1; exact h1.symm
            rw [habs, List.set_set] at hsim2
            refine ⟨_, ?_, hsim2⟩
            simp only [Spec.step, sobj_some hs hod, sobj_some hs hos, if_neg hds]
  | erase i =>
    simp only [step] at hstep
    cases ho : st.obj i with
    | none => rw [ho] at hstep; cases hstep
    | some o =>
      rw [ho] at hstep
      simp only at hstep
      cases hc : o.content with
      | none =>
        rw [hc] at hstep
        simp only [Option.some.injEq, Prod.mk.injEq] at hstep
        obtain ⟨rfl, rfl⟩ := hstep
        refine ⟨h, fun _ hl => hl, fun _ a hs => ⟨a, ?_, hs⟩⟩
        simp [Spec.step, sobj_some hs ho, absObj, hc]
      | some c =>
        rw [hc] at hstep
        obtain ⟨cell, hcell, hfree⟩ := free_ok h ho hc
        simp only [hfree, Res.map_ok, fin, Option.some.injEq, Prod.mk.injEq] at hstep
        obtain ⟨rfl, rfl⟩ := hstep
        have hcl := (List.getElem?_eq_some_iff.1 hcell).1
        refine ⟨inv_afterFree h ho hc _ _ (Or.inr rfl), fun _ hl => noLeak_afterFree hl ho hc _ _ hcl, ?_⟩
        intro _ a hs
        refine ⟨_, ?_, sim_afterFree h hs ho hc _ _ (some .empty) (Or.inr ⟨rfl, rfl⟩)⟩
        simp [Spec.step, sobj_some hs ho, absObj_value hc hcell]
  | destroy i =>
    simp only [step] at hstep
    cases ho : st.obj i with
    | none => rw [ho] at hstep; cases hstep
    | some o =>
      rw [ho] at hstep
      simp only at hstep
      have hi := obj_lt ho
      cases hc : o.content with
      | none =>
        rw [hc] at hstep
        simp only [Option.some.injEq, Prod.mk.injEq] at hstep
        obtain ⟨rfl, rfl⟩ := hstep
        have hob := fun j => obj_setObj st i j none hi
        refine ⟨⟨?_, ?_, ?_, h.freed⟩, ?_, ?_⟩
        · intro j oj c h1 h2
          rw [hob] at h1
          by_cases hij : i = j
          · rw [if_pos hij] at h1; cases h1
          · rw [if_neg hij] at h1; exact h.own j oj c h1 h2
        · intro j k oj ok' c h1 h2
          rw [hob] at h1 h2
          by_cases hij : i = j
          · rw [if_pos hij] at h1; cases h1
          · by_cases hik : i = k
            · rw [if_pos hik] at h2; cases h2
            · rw [if_neg hij] at h1; rw [if_neg hik] at h2
              exact h.uniq j k oj ok' c h1 h2
        · intro j oj h1
          rw [hob] at h1
          by_cases hij : i = j
          · rw [if_pos hij] at h1; cases h1
          · rw [if_neg hij] at h1; exact h.emp j oj h1
        · intro _ hl c cell h1 h2
          obtain ⟨j, oj, h3, h4⟩ := hl c cell h1 h2
          refine ⟨j, oj, ?_, h4⟩
          rw [hob, if_neg]
          · exact h3
          · intro e; subst e
            rw [ho] at h3; injection h3 with h3; subst h3; rw [hc] at h4; cases h4
        · intro _ a hs
          refine ⟨a.set i none, ?_, ?_⟩
          · simp [Spec.step, sobj_some hs ho]
          · refine ⟨by simp [St.setObj, hs.len], fun j => ?_⟩
            rw [hob, sobj_set _ _ _ _ (by rw [hs.len]; exact hi)]
            by_cases hij : i = j
            · rw [if_pos hij, if_pos hij]; rfl
            · rw [if_neg hij, if_neg hij]; exact hs.objs j
      | some c =>
        rw [hc] at hstep
        obtain ⟨cell, hcell, hfree⟩ := free_ok h ho hc
        simp only [hfree, Res.map_ok, fin, Option.some.injEq, Prod.mk.injEq] at hstep
        obtain ⟨rfl, rfl⟩ := hstep
        have hcl := (List.getElem?_eq_some_iff.1 hcell).1
        refine ⟨inv_afterFree h ho hc _ _ (Or.inl rfl), fun _ hl => noLeak_afterFree hl ho hc _ _ hcl, ?_⟩
        intro _ a hs
        refine ⟨_, ?_, sim_afterFree h hs ho hc _ _ none (Or.inl ⟨rfl, rfl⟩)⟩
        simp [Spec.step, sobj_some hs ho]
  | lock i =>
    simp only [step] at hstep
    cases ho : st.obj i with
    | none => rw [ho] at hstep; cases hstep
    | some o =>
      rw [ho] at hstep
      simp only [Option.map_some, Option.some.injEq] at hstep
      cases hc : o.content with
      | none =>
        have e : lockObj ml st i o = .ok st := by
          unfold lockObj; rw [hc]; split <;> rfl
        rw [e] at hstep
        simp only [fin, Prod.mk.injEq] at hstep
        obtain ⟨rfl, rfl⟩ := hstep
        refine ⟨h, fun _ hl => hl, fun _ a hs => ⟨a, ?_, hs⟩⟩
        simp [Spec.step, sobj_some hs ho, absObj, hc]
      | some c =>
        obtain ⟨st1, h1, h2, h3, h4⟩ := lockObj_ok h ho hc
        rw [h1] at hstep
        simp only [fin, Prod.mk.injEq] at hstep
        obtain ⟨rfl, rfl⟩ := hstep
        obtain ⟨cell, hcell, _⟩ := h.own i o c ho hc
        refine ⟨h2, fun _ hl => h3 hl, fun hml a hs => ⟨_, ?_, h4 hml a hs⟩⟩
        simp [Spec.step, sobj_some hs ho, absObj_value hc hcell]
  | unlock i =>
    simp only [step] at hstep
    cases ho : st.obj i with
    | none => rw [ho] at hstep; cases hstep
    | some o =>
      rw [ho] at hstep
      simp only [Option.map_some, Option.some.injEq] at hstep
      cases hc : o.content with
      | none =>
        have e : unlockObj ml st i o = .ok st := by
          unfold unlockObj; rw [hc]; split <;> rfl
        rw [e] at hstep
        simp only [fin, Prod.mk.injEq] at hstep
        obtain ⟨rfl, rfl⟩ := hstep
        refine ⟨h, fun _ hl => hl, fun _ a hs => ⟨a, ?_, hs⟩⟩
        simp [Spec.step, sobj_some hs ho, absObj, hc]
      | some c =>
        obtain ⟨st1, h1, h2, h3, _, h4, _⟩ := unlockObj_ok h ho hc
        rw [h1] at hstep
        simp only [fin, Prod.mk.injEq] at hstep
        obtain ⟨rfl, rfl⟩ := hstep
        obtain ⟨cell, hcell, _⟩ := h.own i o c ho hc
        refine ⟨h2, fun _ hl => h3 hl, fun hml a hs => ⟨_, ?_, h4 hml a hs⟩⟩
        simp [Spec.step, sobj_some hs ho, absObj_value hc hcell]
  | readData i =>
    simp only [step] at hstep
    cases ho : st.obj i with
    | none => rw [ho] at hstep; cases hstep
    | some o =>
      rw [ho] at hstep
      simp only [Option.map_some, Option.some.injEq, Prod.mk.injEq] at hstep
      obtain ⟨rfl, rfl⟩ := hstep
      refine ⟨h, fun _ hl => hl, fun hml a hs => ⟨a, ?_, hs⟩⟩
      subst hml
      simp only [Spec.step, sobj_some hs ho, Option.map_some, isLocked, if_true, Option.some.injEq, Prod.mk.injEq, true_and]
      cases hc : o.content with
      | none =>
        have := h.emp i o ho hc
        simp [Spec.read, absObj, hc, this]
      | some c =>
        obtain ⟨cell, hcell, _⟩ := h.own i o c ho hc
        cases hl : o.locked with
        | true => simp [Spec.read, absObj, hc, hcell, hl]
        | false =>
          obtain ⟨cell', hcell', hd⟩ := deref_ok h ho hc hl
          rw [hcell] at hcell'; injection hcell' with e; subst e
          simp [Spec.read, absObj, hc, hcell, hl, hd]
  | readUnlock i =>
    simp only [step] at hstep
    cases ho : st.obj i with
    | none => rw [ho] at hstep; cases hstep
    | some o =>
      rw [ho] at hstep
      simp only [Option.map_some, Option.some.injEq] at hstep
      cases hc : o.content with
      | none =>
        rw [hc] at hstep
        simp only [Prod.mk.injEq] at hstep
        obtain ⟨rfl, rfl⟩ := hstep
        refine ⟨h, fun _ hl => hl, fun _ a hs => ⟨a, ?_, hs⟩⟩
        simp [Spec.step, sobj_some hs ho, absObj, hc, Spec.read]
      | some c =>
        obtain ⟨st1, h1, h2, h3, _, h4, cell, hcell, hd⟩ := unlockObj_ok h ho hc
        rw [hc] at hstep
        simp only [h1, Prod.mk.injEq] at hstep
        obtain ⟨rfl, rfl⟩ := hstep
        refine ⟨h2, fun _ hl => h3 hl, fun hml a hs => ⟨_, ?_, h4 hml a hs⟩⟩
        rw [hd]
        simp [Spec.step, sobj_some hs ho, absObj_value hc hcell, Spec.read]
  | serialize i =>
    simp only [step] at hstep
    cases ho : st.obj i with
    | none => rw [ho] at hstep; cases hstep
    | some o =>
      rw [ho] at hstep
      simp only [Option.map_some, Option.some.injEq, Prod.mk.injEq] at hstep
      obtain ⟨rfl, rfl⟩ := hstep
      refine ⟨h, fun _ hl => hl, fun hml a hs => ⟨a, ?_, hs⟩⟩
      subst hml
      simp only [Spec.step, sobj_some hs ho, Option.map_some, isLocked, if_true, Option.some.injEq, Prod.mk.injEq, true_and]
      cases hc : o.content with
      | none =>
        simp [Spec.read, absObj, hc]
      | some c =>
        obtain ⟨cell, hcell, _⟩ := h.own i o c ho hc
        cases hl : o.locked with
        | true => simp [Spec.read, absObj, hc, hcell, hl]
        | false =>
          obtain ⟨cell', hcell', hd⟩ := deref_ok h ho hc hl
          rw [hcell] at hcell'; injection hcell' with e; subst e
          simp [Spec.read, absObj, hc, hcell, hl, hd]

end Verif.Key
