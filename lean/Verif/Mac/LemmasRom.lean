import Verif.Mac.SpecRom
import Verif.Prg.PropsGame

/-!
# Two uniform functions one after the other, and points that cannot be guessed
-/

namespace Verif.Mac.Rom

open Verif Verif.Mac Verif.Avg Verif.Oracle

/-! ## Attacks -/

theorem play_unit {ι γ : Type} (F : ι → γ) (A : Att ι γ) : 0 ≤ play F A ∧ play F A ≤ 1 := by
  induction A with
  | done b => unfold play; split <;> norm_num
  | ask s c ih => exact ih _

theorem abs_play (F G : Ask → Bytes) (A B : Att Ask Bytes) : |play F A - play G B| ≤ 1 := by
  have h1 := play_unit F A
  have h2 := play_unit G B
  rw [abs_le]
  constructor <;> linarith [h1.1, h1.2, h2.1, h2.2]

theorem play_overHash {γ : Type} (H F : Bytes → γ) (A : Att Ask γ) : play (answers H F) A = play F (overHash H A) := by
  induction A with
  | done b => rfl
  | ask s c ih =>
    cases s with
    | hash s => exact ih _
    | mac m => exact ih _

theorem atMost_overHash {γ : Type} (H : Bytes → γ) {qh qm : Nat} {A : Att Ask γ} (hA : Counts qh qm A) : AtMost qm (overHash H A) := by
  induction hA with
  | done b => exact .done b
  | hash _ ih => exact ih _
  | mac _ ih => exact .ask fun y => ih y

theorem asks_overHash {γ : Type} (H : Bytes → γ) {n : Nat} {A : Att Ask γ} (hA : Asks (Short n) A) : Asks (fun m => m.length ≤ n) (overHash H A) := by
  induction hA with
  | done b => exact .done b
  | @ask s c hs _ ih =>
    cases s with
    | hash s => exact ih _
    | mac m => exact .ask hs fun y => ih y

/-- How many of the hash values asked for are at points in `b`. -/
def hits (b : Bytes → Bool) (H F : Bytes → Bytes) : Att Ask Bytes → ℚ
  | .done _ => 0
  | .ask (.hash s) c => (if b s then 1 else 0) + hits b H F (c (H s))
  | .ask (.mac m) c => hits b H F (c (F m))

theorem hits_nonneg (b : Bytes → Bool) (H F : Bytes → Bytes) (A : Att Ask Bytes) : 0 ≤ hits b H F A := by
  induction A with
  | done _ => exact le_refl _
  | ask s c ih =>
    cases s with
    | hash s =>
      have := ih (H s)
      unfold hits
      split <;> linarith
    | mac m => exact ih _

/-- Hash functions that agree outside `b` are the same until a point in `b` is asked for. -/
theorem play_hits {b : Bytes → Bool} {H H' : Bytes → Bytes} (F : Bytes → Bytes) (h : ∀ s, b s = false → H' s = H s) (A : Att Ask Bytes) :
    |play (answers H' F) A - play (answers H F) A| ≤ hits b H F A := by
  induction A with
  | done _ => simp [play, hits]
  | ask s c ih =>
    cases s with
    | hash s =>
      unfold hits
      cases hb : b s with
      | true =>
        have h1 := abs_play (answers H' F) (answers H F) (.ask (.hash s) c) (.ask (.hash s) c)
        have h2 := hits_nonneg b H F (c (H s))
        simp only [if_true]
        linarith
      | false =>
        have := ih (H s)
        simp only [play, answers, h s hb, Bool.false_eq_true, if_false, zero_add]
        exact this
    | mac m => exact ih _

/-- Points that are hit with probability `ε` each are hit `qh ε` times on the average. -/
theorem E_hits {κ : Type} [Fintype κ] [Nonempty κ] (b : κ → Bytes → Bool) {ε : ℚ} (hε : 0 ≤ ε) (hb : ∀ s, E (fun k => if b k s then (1 : ℚ) else 0) ≤ ε)
    (H F : Bytes → Bytes) {qh qm : Nat} {A : Att Ask Bytes} (hA : Counts qh qm A) : E (fun k => hits (b k) H F A) ≤ qh * ε := by
  induction hA with
  | done _ =>
    simp only [hits, E_const]
    positivity
  | @hash qh qm s c _ ih =>
    simp only [hits]
    rw [E_add]
    have h1 := hb s
    have h2 := ih (H s)
    push_cast
    linarith
  | mac _ ih => exact ih _

/-! ## Two uniform functions one after the other -/

/-- The entry of a table of strings, `a` outside. -/
def get {V : Type} {n : Nat} (a : V) (T : Str n → V) (m : Bytes) : V := if h : m.length ≤ n then T ⟨m, h⟩ else a

/-- A message, the value in between, and the last value. -/
abbrev Row (V : Type) : Type := Bytes × V × V

/-- The first function, with some values fixed. -/
def overI {V : Type} (a : V) {n : Nat} (L : List (Row V)) (I : Str n → V) (m : Bytes) : V :=
  match L.lookup m with
  | some e => e.1
  | none => get a I m

/-- The second. -/
def overO {V : Type} [DecidableEq V] : List (Row V) → (V → V) → V → V
  | [], O, x => O x
  | e :: L, O, x => if x = e.2.1 then e.2.2 else overO L O x

variable {V : Type} [DecidableEq V]

theorem overO_out {L : List (Row V)} {x : V} (h : x ∉ L.map (·.2.1)) (O : V → V) : overO L O x = O x := by
  induction L with
  | nil => rfl
  | cons e L ih =>
    rw [List.map_cons, List.mem_cons, not_or] at h
    rw [overO, if_neg h.1]
    exact ih h.2

theorem lookup_mem {L : List (Row V)} {m : Bytes} {e : V × V} (h : L.lookup m = some e) : (m, e) ∈ L := by
  induction L with
  | nil => simp at h
  | cons a L ih =>
    rw [List.lookup_cons] at h
    by_cases c : m == a.1
    · rw [c] at h
      simp only [Option.some.injEq] at h
      rw [beq_iff_eq] at c
      subst c
      subst h
      exact List.mem_cons_self
    · rw [Bool.not_eq_true] at c
      rw [c] at h
      exact List.mem_cons_of_mem _ (ih h)

theorem overO_mem {L : List (Row V)} (hL : (L.map (·.2.1)).Nodup) {m : Bytes} {e : V × V} (h : (m, e) ∈ L) (O : V → V) :
    overO L O e.1 = e.2 := by
  induction L with
  | nil => simp at h
  | cons a L ih =>
    rw [List.map_cons, List.nodup_cons] at hL
    rw [overO]
    rcases List.mem_cons.1 h with h | h
    · rw [← h, if_pos rfl]
    · have : e.1 ≠ a.2.1 := by
        intro he
        apply hL.1
        rw [← he]
        exact List.mem_map.2 ⟨(m, e), h, rfl⟩
      rw [if_neg this]
      exact ih hL.2 h

theorem overI_update (a : V) {n : Nat} {L : List (Row V)} {m : Bytes} (hl : L.lookup m = none) (hm : m.length ≤ n) (x y : V) (I : Str n → V) :
    overI a L (Function.update I ⟨m, hm⟩ x) = overI a ((m, x, y) :: L) I := by
  funext m'
  unfold overI
  rw [List.lookup_cons]
  by_cases c : m' = m
  · subst c
    rw [hl, beq_self_eq_true]
    simp only
    unfold get
    rw [dif_pos hm, Function.update_self]
  · rw [show (m' == m) = false by simpa using c]
    simp only
    cases L.lookup m' with
    | some e => rfl
    | none =>
      simp only
      unfold get
      by_cases h : m'.length ≤ n
      · rw [dif_pos h, dif_pos h, Function.update_of_ne]
        simpa using c
      · rw [dif_neg h, dif_neg h]

theorem overO_update {L : List (Row V)} {x : V} (h : x ∉ L.map (·.2.1)) (m : Bytes) (y : V) (O : V → V) :
    overO L (Function.update O x y) = overO ((m, x, y) :: L) O := by
  funext x'
  rw [overO]
  by_cases c : x' = x
  · subst c
    rw [if_pos rfl, overO_out h, Function.update_self]
  · rw [if_neg c]
    clear h
    induction L with
    | nil => rw [overO, overO, Function.update_of_ne c]
    | cons e L ih => rw [overO, overO, ih]

variable [Fintype V] [Nonempty V]

/-- What an attack sees of two uniform functions one after the other is at most the chance of a collision in between away from one uniform function. -/
theorem comp_fresh (u : V → Bytes) (a : V) {d : ℚ} (hd : 0 ≤ d) (hmem : ∀ U : List V, E (fun x : V => if U.contains x then (1 : ℚ) else 0) ≤ U.length * d)
    {n q : Nat} {B : Att Bytes Bytes} (hq : AtMost q B) : ∀ (_ : Asks (fun m => m.length ≤ n) B) (L : List (Row V)) (_ : (L.map (·.2.1)).Nodup),
    |E (fun I : Str n → V => E (fun O : V → V => play (fun m => u (overO L O (overI a L I m))) B)) - fresh u (L.map fun e => (e.1, u e.2.2)) B|
      ≤ ((q : ℚ) * L.length + q * (q - 1) / 2) * d := by
  have hnn : ∀ (q : Nat) (l : ℚ), 0 ≤ l → 0 ≤ ((q : ℚ) * l + q * (q - 1) / 2) * d := by
    intro q l hl
    rcases Nat.eq_zero_or_pos q with h | h
    · subst h; simp
    · have h1 : (1 : ℚ) ≤ q := by exact_mod_cast h
      have h2 : (0 : ℚ) ≤ q - 1 := by linarith
      positivity
  induction hq with
  | done b =>
    intro _ L _
    simp only [play, fresh, E_const, sub_self, abs_zero]
    exact hnn _ _ (Nat.cast_nonneg _)
  | @ask q m c _ ih =>
    intro hA L hL
    cases hA with
    | ask hm hc =>
    have hq0 : (0 : ℚ) ≤ q := Nat.cast_nonneg q
    have hl0 : (0 : ℚ) ≤ L.length := Nat.cast_nonneg _
    simp only [play, fresh]
    have hlk : (L.map fun e => (e.1, u e.2.2)).lookup m = (L.lookup m).map fun e => u e.2 := lookup_map (fun e : V × V => u e.2) m L
    rw [hlk]
    cases hl : L.lookup m with
    | some e =>
      have he : ∀ (I : Str n → V) O, overO L O (overI a L I m) = e.2 := by
        intro I O
        have : overI a L I m = e.1 := by unfold overI; rw [hl]
        rw [this]
        exact overO_mem hL (lookup_mem hl) O
      simp only [he, Option.map_some]
      refine le_trans (ih _ (hc _) L hL) ?_
      push_cast
      have : (0 : ℚ) ≤ (L.length + q) * d := by positivity
      nlinarith
    | none =>
      simp only [Option.map_none]
      have he : ∀ (I : Str n → V), overI a L I m = get a I m := by
        intro I
        unfold overI
        rw [hl]
      rw [E_update ⟨m, hm⟩ (fun I : Str n → V => E (fun O : V → V =>
        play (fun m => u (overO L O (overI a L I m))) (c (u (overO L O (overI a L I m)))))), E_comm]
      have hx : ∀ (x : V) (I : Str n → V), overI a L (Function.update I ⟨m, hm⟩ x) m = x := by
        intro x I
        rw [he]
        unfold get
        rw [dif_pos hm, Function.update_self]
      simp only [hx]
      have hfr : ∀ y : V, 0 ≤ fresh u ((m, u y) :: L.map fun e => (e.1, u e.2.2)) (c (u y)) ∧
          fresh u ((m, u y) :: L.map fun e => (e.1, u e.2.2)) (c (u y)) ≤ 1 := fun y => fresh_test _ _ _
      have hF0 := E_nonneg fun y => (hfr y).1
      have hF1 := E_le_one fun y => (hfr y).2
      have hstep : ∀ x : V, |E (fun I : Str n → V => E (fun O : V → V =>
          play (fun m' => u (overO L O (overI a L (Function.update I ⟨m, hm⟩ x) m'))) (c (u (overO L O x)))))
          - E (fun y : V => fresh u ((m, u y) :: L.map fun e => (e.1, u e.2.2)) (c (u y)))|
          ≤ (if (L.map (·.2.1)).contains x then 1 else 0) + (q * (L.length + 1) + q * (q - 1) / 2) * d := by
        intro x
        have hb0 := hnn q (L.length + 1) (by positivity)
        by_cases hxm : x ∈ L.map (·.2.1)
        · rw [if_pos (by simpa using hxm)]
          have g0 := E_nonneg fun I : Str n → V => E_nonneg fun O : V → V =>
            (play_unit (fun m' => u (overO L O (overI a L (Function.update I ⟨m, hm⟩ x) m'))) (c (u (overO L O x)))).1
          have g1 := E_le_one fun I : Str n → V => E_le_one fun O : V → V =>
            (play_unit (fun m' => u (overO L O (overI a L (Function.update I ⟨m, hm⟩ x) m'))) (c (u (overO L O x)))).2
          rw [abs_le]
          constructor <;> linarith
        · rw [if_neg (by simpa using hxm), zero_add]
          have e1 : ∀ I : Str n → V, E (fun O : V → V =>
              play (fun m' => u (overO L O (overI a L (Function.update I ⟨m, hm⟩ x) m'))) (c (u (overO L O x)))) =
              E (fun y : V => E (fun O : V → V =>
                play (fun m' => u (overO ((m, x, y) :: L) O (overI a ((m, x, y) :: L) I m'))) (c (u y)))) := by
            intro I
            rw [E_update x, E_comm]
            refine congrArg E (funext fun y => congrArg E (funext fun O => ?_))
            have e2 : overO L (Function.update O x y) x = y := by rw [overO_out hxm, Function.update_self]
            rw [e2, overO_update hxm m y O, overI_update a hl hm x y I]
          simp only [e1]
          rw [E_comm]
          refine abs_E_sub_le _ _ fun y => ?_
          have := ih (u y) (hc _) ((m, x, y) :: L) (by rw [List.map_cons, List.nodup_cons]; exact ⟨hxm, hL⟩)
          rw [List.length_cons] at this
          push_cast at this
          exact this
      generalize E (fun y : V => fresh u ((m, u y) :: L.map fun e => (e.1, u e.2.2)) (c (u y))) = Fr at hstep ⊢
      have hfin := abs_E_sub_le_E _ (fun _ => Fr) _ hstep
      rw [E_const] at hfin
      refine le_trans hfin ?_
      rw [E_add, E_const]
      have := hmem (L.map (·.2.1))
      rw [List.length_map] at this
      push_cast
      nlinarith

end Verif.Mac.Rom
