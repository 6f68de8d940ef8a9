import Verif.Aez.SpecWide
import Verif.Aez.ReduceRandom

/-!
# AEZ-core with any functions
-/

namespace Verif.AezWide

open Verif Verif.Avg Verif.Oracle Verif.AezRandom

/-! ## What computations give -/

section
variable (T : Nat × Nat → Nat)

def run {α : Type} : Prog α → α
  | .ret a => a
  | .ask x k => run (k (T x))

@[simp] theorem run_pure {α : Type} (a : α) : run T (pure a : Prog α) = a := rfl
@[simp] theorem run_get (t x : Nat) : run T (get t x) = T (t, x) := rfl

@[simp] theorem run_bind {α β : Type} (p : Prog α) (f : α → Prog β) : run T (p >>= f) = run T (f (run T p)) := by
  show run T (p.bind f) = _
  induction p with
  | ret a => rfl
  | ask x k ih => exact ih _

theorem run_all {α : Type} (z : α) (f : Nat → Prog α) (m : Nat) : ∀ i, 1 ≤ i → i ≤ m → run T (all z f m) i = run T (f i) := by
  induction m with
  | zero => intro i h1 h2; omega
  | succ m ih =>
    intro i h1 h2
    unfold all
    simp only [run_bind, run_pure]
    by_cases h : i = m + 1
    · rw [if_pos h, h]
    · rw [if_neg h]; exact ih i h1 (by omega)

theorem play_before {α : Type} (k : α → Att (Nat × Nat) Nat) (p : Prog α) : play T (p.before k) = play T (k (run T p)) := by
  induction p with
  | ret a => rfl
  | ask x c ih => exact ih _

/-! ## AEZ-core -/

def wT (M : Bytes) (i : Nat) : Nat := AezSpec.block M (32 * (i - 1)) ^^^ T (16 + 2 * i, AezSpec.block M (32 * (i - 1) + 16))
def xT (M : Bytes) (i : Nat) : Nat := AezSpec.block M (32 * (i - 1) + 16) ^^^ T (0, wT T M i)
def uvT (n : Nat) (u v : Bytes) : Nat :=
  if n % 32 = 0 then 0 else if n % 32 < 16 then T (4, AezSpec.pad10 u) else T (4, beNat u) ^^^ T (5, AezSpec.pad10 v)
def sxT (a : Nat) (M : Bytes) : Nat :=
  AezSpec.block M (M.length - 32) ^^^ (AezSpec.xorSum (xT T M) (AezSpec.pairs M) ^^^ uvT T M.length (AezSpec.uPart M) (AezSpec.vPart M)) ^^^
    T (a, AezSpec.block M (M.length - 16))
def syT (a : Nat) (M : Bytes) : Nat := AezSpec.block M (M.length - 16) ^^^ T (8 + a, sxT T a M)
def sT (a : Nat) (M : Bytes) : Nat := sxT T a M ^^^ syT T a M
def yT (a : Nat) (M : Bytes) (i : Nat) : Nat := wT T M i ^^^ T (17 + 2 * i, sT T a M)
def zT (a : Nat) (M : Bytes) (i : Nat) : Nat := xT T M i ^^^ T (17 + 2 * i, sT T a M)
def c1T (a : Nat) (M : Bytes) (i : Nat) : Nat := yT T a M i ^^^ T (0, zT T a M i)
def c0T (a : Nat) (M : Bytes) (i : Nat) : Nat := zT T a M i ^^^ T (16 + 2 * i, c1T T a M i)
def cuT (a : Nat) (M : Bytes) : Bytes := AezSpec.xorBytes (AezSpec.uPart M) (beBytes 16 (T (12, sT T a M)))
def cvT (a : Nat) (M : Bytes) : Bytes := AezSpec.xorBytes (AezSpec.vPart M) (beBytes 16 (T (13, sT T a M)))
def cyT (a b : Nat) (M : Bytes) : Nat := sxT T a M ^^^ T (8 + b, syT T a M)
def cxT (a b : Nat) (M : Bytes) : Nat :=
  syT T a M ^^^ (AezSpec.xorSum (yT T a M) (AezSpec.pairs M) ^^^ uvT T M.length (cuT T a M) (cvT T a M)) ^^^ T (b, cyT T a b M)

/-- A string from its parts. -/
def asm (m : Nat) (p : Nat → Nat × Nat) (u v : Bytes) (x y : Nat) : Bytes :=
  (List.range m).flatMap (fun i => beBytes 16 (p (i + 1)).1 ++ beBytes 16 (p (i + 1)).2) ++ u ++ v ++ beBytes 16 x ++ beBytes 16 y

def coreT (a b : Nat) (M : Bytes) : Bytes :=
  asm (AezSpec.pairs M) (fun i => (c0T T a M i, c1T T a M i)) (cuT T a M) (cvT T a M) (cxT T a b M) (cyT T a b M)

theorem xorSum_congr {f g : Nat → Nat} : ∀ {m : Nat}, (∀ i, 1 ≤ i → i ≤ m → f i = g i) → AezSpec.xorSum f m = AezSpec.xorSum g m
  | 0, _ => rfl
  | m + 1, h => by
    unfold AezSpec.xorSum
    rw [xorSum_congr fun i h1 h2 => h i h1 (by omega), h (m + 1) (by omega) le_rfl]

theorem asm_congr {m : Nat} {p p' : Nat → Nat × Nat} (h : ∀ i, 1 ≤ i → i ≤ m → p i = p' i) (u v : Bytes) (x y : Nat) : asm m p u v x y = asm m p' u v x y := by
  unfold asm
  congr 4
  have : ∀ i ∈ List.range m, (fun i => beBytes 16 (p (i + 1)).1 ++ beBytes 16 (p (i + 1)).2) i = (fun i => beBytes 16 (p' (i + 1)).1 ++ beBytes 16 (p' (i + 1)).2) i := by
    intro i hi
    have := List.mem_range.1 hi
    beta_reduce
    rw [h (i + 1) (by omega) (by omega)]
  exact List.flatMap_congr this

theorem run_uv (n : Nat) (u v : Bytes) : run T (uvQ n u v) = uvT T n u v := by
  unfold uvQ uvT
  split
  · rfl
  · split
    · rfl
    · rfl

theorem run_core (a b : Nat) (M : Bytes) : run T (coreQ a b M) = coreT T a b M := by
  unfold coreQ
  simp only [run_bind, run_pure, run_get, run_uv]
  set m := AezSpec.pairs M with hm
  set W := run T (all 0 (fun i => do
    let v ← get (16 + 2 * i) (AezSpec.block M (32 * (i - 1) + 16))
    pure (AezSpec.block M (32 * (i - 1)) ^^^ v)) m) with hW
  have eW : ∀ i, 1 ≤ i → i ≤ m → W i = wT T M i := by
    intro i h1 h2
    rw [hW, run_all T _ _ _ i h1 h2]
    simp only [run_bind, run_pure, run_get]
    rfl
  set X := run T (all 0 (fun i => do
    let v ← get 0 (W i)
    pure (AezSpec.block M (32 * (i - 1) + 16) ^^^ v)) m) with hX
  have eX : ∀ i, 1 ≤ i → i ≤ m → X i = xT T M i := by
    intro i h1 h2
    rw [hX, run_all T _ _ _ i h1 h2]
    simp only [run_bind, run_pure, run_get]
    rw [eW i h1 h2]
    rfl
  have esx : AezSpec.block M (M.length - 32) ^^^ (AezSpec.xorSum X m ^^^ uvT T M.length (AezSpec.uPart M) (AezSpec.vPart M)) ^^^
      T (a, AezSpec.block M (M.length - 16)) = sxT T a M := by
    unfold sxT
    rw [xorSum_congr eX]
  rw [esx, show AezSpec.block M (M.length - 16) ^^^ T (8 + a, sxT T a M) = syT T a M from rfl, show sxT T a M ^^^ syT T a M = sT T a M from rfl,
    show sxT T a M ^^^ T (8 + b, syT T a M) = cyT T a b M from rfl]
  set K := run T (all 0 (fun i => get (17 + 2 * i) (sT T a M)) m) with hK
  have eK : ∀ i, 1 ≤ i → i ≤ m → K i = T (17 + 2 * i, sT T a M) := by
    intro i h1 h2
    rw [hK, run_all T _ _ _ i h1 h2, run_get]
  have ey : ∀ i, 1 ≤ i → i ≤ m → W i ^^^ K i = yT T a M i := fun i h1 h2 => by rw [eW i h1 h2, eK i h1 h2]; rfl
  have ez : ∀ i, 1 ≤ i → i ≤ m → X i ^^^ K i = zT T a M i := fun i h1 h2 => by rw [eX i h1 h2, eK i h1 h2]; rfl
  set C1 := run T (all 0 (fun i => do
    let v ← get 0 (X i ^^^ K i)
    pure ((W i ^^^ K i) ^^^ v)) m) with hC1
  have e1 : ∀ i, 1 ≤ i → i ≤ m → C1 i = c1T T a M i := by
    intro i h1 h2
    rw [hC1, run_all T _ _ _ i h1 h2]
    simp only [run_bind, run_pure, run_get]
    rw [ey i h1 h2, ez i h1 h2]
    rfl
  set C0 := run T (all 0 (fun i => do
    let v ← get (16 + 2 * i) (C1 i)
    pure ((X i ^^^ K i) ^^^ v)) m) with hC0
  have e0 : ∀ i, 1 ≤ i → i ≤ m → C0 i = c0T T a M i := by
    intro i h1 h2
    rw [hC0, run_all T _ _ _ i h1 h2]
    simp only [run_bind, run_pure, run_get]
    rw [ez i h1 h2, e1 i h1 h2]
    rfl
  have ecx : syT T a M ^^^ (AezSpec.xorSum (fun i => W i ^^^ K i) m ^^^ uvT T M.length (cuT T a M) (cvT T a M)) ^^^ T (b, cyT T a b M) = cxT T a b M := by
    unfold cxT
    rw [xorSum_congr ey]
  have := asm_congr (m := m) (p := fun i => (C0 i, C1 i)) (p' := fun i => (c0T T a M i, c1T T a M i))
    (fun i h1 h2 => by rw [e0 i h1 h2, e1 i h1 h2]) (cuT T a M) (cvT T a M) (cxT T a b M) (cyT T a b M)
  rw [show coreT T a b M = _ from this.symm, ← ecx]
  rfl

/-- The answers. -/
def cipherT (a : Ask) : Bytes := if a.1 then coreT T 2 1 a.2 else coreT T 1 2 a.2

theorem play_toFunctions : ∀ A : Att Ask Bytes, play T (toFunctions A) = play (cipherT T) A
  | .done _ => rfl
  | .ask a c => by
    unfold toFunctions
    rw [play_before, play_toFunctions]
    show _ = play (cipherT T) (c (cipherT T a))
    unfold cipherT
    cases a.1
    · simp only [Bool.false_eq_true, if_false, run_core]
    · simp only [if_true, run_core]

end

/-! ## The number of questions -/

inductive Few {α : Type} : Nat → Prog α → Prop
  | ret {n : Nat} (a : α) : Few n (.ret a)
  | ask {n : Nat} {x : Nat × Nat} {k : Nat → Prog α} : (∀ v, Few n (k v)) → Few (n + 1) (.ask x k)

theorem Few.mono {α : Type} {n m : Nat} {p : Prog α} (h : Few n p) (hm : n ≤ m) : Few m p := by
  induction h generalizing m with
  | ret a => exact .ret a
  | @ask n x k _ ih =>
    obtain ⟨m, rfl⟩ : ∃ m', m = m' + 1 := ⟨m - 1, by omega⟩
    exact .ask fun v => ih v (by omega)

theorem Few.bind {α β : Type} {n m : Nat} {p : Prog α} {f : α → Prog β} (h : Few n p) (hf : ∀ a, Few m (f a)) : Few (n + m) (p >>= f) := by
  show Few (n + m) (p.bind f)
  induction h with
  | @ret n a => exact (hf a).mono (by omega)
  | @ask n x k _ ih =>
    rw [Nat.add_right_comm]
    exact .ask fun v => ih v

theorem few_get (t x : Nat) : Few 1 (get t x) := .ask fun _ => .ret _

theorem few_pure {α : Type} (a : α) : Few 0 (pure a : Prog α) := .ret a

theorem few_all {α : Type} (z : α) {f : Nat → Prog α} (h : ∀ i, Few 1 (f i)) : ∀ m, Few m (all z f m)
  | 0 => .ret _
  | m + 1 => ((few_all z h m).bind fun _ => (h _).bind fun _ => few_pure _).mono (by omega)

theorem few_uv (n : Nat) (u v : Bytes) : Few 2 (uvQ n u v) := by
  unfold uvQ
  split
  · exact .ret _
  · split
    · exact (few_get _ _).mono (by omega)
    · exact ((few_get _ _).bind fun _ => (few_get _ _).bind fun _ => few_pure _).mono (by omega)

theorem few_core (a b : Nat) (M : Bytes) : Few (5 * AezSpec.pairs M + 10) (coreQ a b M) := by
  have h : Few (AezSpec.pairs M + (AezSpec.pairs M + (2 + (1 + (1 + (AezSpec.pairs M + (AezSpec.pairs M + (AezSpec.pairs M +
      (1 + (1 + (2 + (1 + (1 + 0))))))))))))) (coreQ a b M) :=
    (few_all _ (fun _ => (few_get _ _).bind fun _ => few_pure _) _).bind fun _ =>
    (few_all _ (fun _ => (few_get _ _).bind fun _ => few_pure _) _).bind fun _ =>
    (few_uv _ _ _).bind fun _ => (few_get _ _).bind fun _ => (few_get _ _).bind fun _ =>
    (few_all _ (fun _ => few_get _ _) _).bind fun _ =>
    (few_all _ (fun _ => (few_get _ _).bind fun _ => few_pure _) _).bind fun _ =>
    (few_all _ (fun _ => (few_get _ _).bind fun _ => few_pure _) _).bind fun _ =>
    (few_get _ _).bind fun _ => (few_get _ _).bind fun _ => (few_uv _ _ _).bind fun _ => (few_get _ _).bind fun _ => (few_get _ _).bind fun _ => few_pure _
  exact h.mono (by omega)

theorem atMost_before {α : Type} {n m : Nat} {p : Prog α} (h : Few n p) {k : α → Att (Nat × Nat) Nat} (hk : ∀ a, AtMost m (k a)) : AtMost (m + n) (p.before k) := by
  induction h with
  | @ret n a =>
    have : ∀ n, AtMost (m + n) (k a) := fun n => by
      induction n with
      | zero => exact hk a
      | succ n ih => exact ih.succ
    exact this n
  | ask _ ih => exact .ask fun v => ih v

theorem atMost_toFunctions {ℓ q : Nat} {A : Att Ask Bytes} (hA : AtMost q A) (hs : Asks (Long ℓ) A) : AtMost (q * (5 * ℓ + 10)) (toFunctions A) := by
  induction hA with
  | done b => exact .done b
  | @ask q a c _ ih =>
    cases hs with
    | ask ha hs =>
      have hp : 5 * AezSpec.pairs a.2 + 10 ≤ 5 * ℓ + 10 := by
        unfold AezSpec.pairs
        have := ha.2
        omega
      unfold toFunctions
      rw [Nat.add_mul, Nat.one_mul]
      refine atMost_before ?_ fun y => ih y (hs y)
      split
      · exact (few_core _ _ _).mono hp
      · exact (few_core _ _ _).mono hp

end Verif.AezWide
