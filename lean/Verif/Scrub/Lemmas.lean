import Verif.Scrub.Model
import Mathlib.Tactic.SplitIfs

/-! # Programs over buffers: lemmas -/

namespace Verif.Scrub

open Verif Verif.Mac

namespace Z

variable {σ α β : Type}

theorem lift_bind (r : Res α) (g : α → Z σ β) (s : σ) :
    (lift r >>= g) s = match r with | .ok a => g a s | .exc e => ⟨[], s, .exc e⟩ | .ub => ⟨[], s, .ub⟩ := by
  cases r <;> rfl

theorem upd_bind (f : σ → Res σ) (g : Unit → Z σ β) (s : σ) :
    (upd f >>= g) s = match f s with | .ok s' => g () s' | .exc e => ⟨[], s, .exc e⟩ | .ub => ⟨[], s, .ub⟩ := by
  show bind (upd f) g s = _
  unfold bind upd
  cases f s <;> rfl

theorem get_bind (g : σ → Z σ β) (s : σ) : (get >>= g) s = g s s := rfl

theorem call_bind (o : Out α) (g : α → Z σ β) (s : σ) :
    (call o >>= g) s = match o.res with
      | .ok a => ⟨o.left ++ (g a s).left, (g a s).st, (g a s).res⟩
      | .exc e => ⟨o.left, s, .exc e⟩
      | .ub => ⟨o.left, s, .ub⟩ := rfl

theorem pure_run (a : α) (s : σ) : (pure a : Z σ α) s = ⟨[], s, .ok a⟩ := rfl

end Z

/-! ## Stores -/

theorem putAt_cases (b : Bytes) (p : Nat) (s : Bytes) : putAt b p s = .ub ∨ ∃ b', putAt b p s = .ok b' ∧ b'.length = b.length := by
  unfold putAt
  split_ifs with h
  · exact .inl rfl
  · refine .inr ⟨_, rfl, ?_⟩
    simp only [List.length_append, List.length_take, List.length_drop]
    omega

theorem putAt_le {b s : Bytes} {p : Nat} (h : p + s.length ≤ b.length) : putAt b p s = .ok (b.take p ++ s ++ b.drop (p + s.length)) := by
  unfold putAt
  rw [if_neg (by omega)]

theorem putAt_all {b s : Bytes} (h : s.length = b.length) : putAt b 0 s = .ok s := by
  rw [putAt_le (by omega)]
  simp [h]

theorem zeroTail_cases (N : Nat) (b : Bytes) : zeroTail N b = .ub ∨ ∃ b', zeroTail N b = .ok b' ∧ b'.length = b.length := by
  unfold zeroTail
  split_ifs
  · exact putAt_cases _ _ _
  · exact .inr ⟨_, rfl, rfl⟩

theorem xorFirst_cases (n : Nat) (c : UInt8) (b : Bytes) : xorFirst n c b = .ub ∨ ∃ b', xorFirst n c b = .ok b' ∧ b'.length = b.length := by
  unfold xorFirst
  split_ifs with h
  · exact .inl rfl
  · refine .inr ⟨_, rfl, ?_⟩
    simp only [List.length_append, List.length_map, List.length_take, List.length_drop]
    omega

theorem memzero_eq {n : Nat} {b : Bytes} (h : b.length = n) : memzero n b = .ok (List.replicate n 0) :=
  putAt_all (by simp [h])

theorem rawBuf_length (junk : Nat → UInt8) (n : Nat) : (rawBuf junk n).length = n := by simp [rawBuf]

end Verif.Scrub
