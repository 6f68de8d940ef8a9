import Verif.Oracle
import Mathlib.Data.Fin.Tuple.Basic
import Mathlib.Data.Fin.VecNotation
import Mathlib.Data.List.OfFn

/-!
# Long values from several short ones

A function with values of 64 bytes is asked at several strings, and the answers are put together and cut.  If no two values need the same
string, independent uniform short values give independent uniform long ones.
-/

namespace Verif.Oracle

open Verif Verif.Avg

/-- Ask at all strings of a list, put the answers behind `acc`, and go on. -/
def askAll : List Bytes → Bytes → (Bytes → Att Bytes Bytes) → Att Bytes Bytes
  | [], acc, k => k acc
  | s :: l, acc, k => .ask s fun y => askAll l (acc ++ y) k

/-- The attack on the short function: a value at `s` is put together from those at `inp s`, and cut to `nb` bytes. -/
def expand (inp : Bytes → List Bytes) (nb : Nat) : Att Bytes Bytes → Att Bytes Bytes
  | .done b => .done b
  | .ask s c => askAll (inp s) [] fun y => expand inp nb (c (y.take nb))

theorem play_askAll (F : Bytes → Bytes) (k : Bytes → Att Bytes Bytes) : ∀ (l : List Bytes) (acc : Bytes),
    play F (askAll l acc k) = play F (k (acc ++ l.flatMap F))
  | [], acc => by simp [askAll]
  | s :: l, acc => by
    show play F (askAll l (acc ++ F s) k) = _
    rw [play_askAll F k l, List.flatMap_cons, List.append_assoc]

theorem play_expand (inp : Bytes → List Bytes) (nb : Nat) (F : Bytes → Bytes) (A : Att Bytes Bytes) :
    play F (expand inp nb A) = play (fun s => ((inp s).flatMap F).take nb) A := by
  induction A with
  | done b => rfl
  | ask s c ih =>
    simp only [expand, play]
    rw [play_askAll, List.nil_append]
    exact ih _

theorem atMost_askAll {q : Nat} {k : Bytes → Att Bytes Bytes} (hk : ∀ y, AtMost q (k y)) : ∀ (l : List Bytes) (acc : Bytes),
    AtMost (q + l.length) (askAll l acc k)
  | [], acc => hk acc
  | _ :: l, _ => .ask fun _ => atMost_askAll hk l _

/-- Each value costs as many questions as it has inputs. -/
theorem atMost_expand {inp : Bytes → List Bytes} {c : Nat} (hc : ∀ s, (inp s).length = c) (nb : Nat) {q : Nat} {A : Att Bytes Bytes} (hA : AtMost q A) :
    AtMost (q * c) (expand inp nb A) := by
  induction hA with
  | done b => exact .done b
  | @ask q s k _ ih =>
    have := atMost_askAll (q := q * c) (k := fun y => expand inp nb (k (y.take nb))) (fun y => ih _) (inp s) []
    rw [hc] at this
    rw [Nat.succ_mul]
    exact this

/-! ## Uniform strings, put together and cut -/

theorem toBytes_append {a b : Nat} (x : Block a) (y : Block b) : toBytes (Fin.append x y) = toBytes x ++ toBytes y :=
  List.ofFn_fin_append x y

theorem E_append (a b : Nat) (f : Bytes → ℚ) :
    E (fun x : Block (a + b) => f (toBytes x)) = E (fun x : Block a => E fun y : Block b => f (toBytes x ++ toBytes y)) := by
  rw [← E_equiv (Fin.appendEquiv a b), E_prod]
  exact congrArg E (funext fun x => congrArg E (funext fun y => congrArg f (toBytes_append x y)))

theorem E_take {n m : Nat} (h : n ≤ m) (f : Bytes → ℚ) :
    E (fun x : Block m => f ((toBytes x).take n)) = E fun x : Block n => f (toBytes x) := by
  obtain ⟨d, rfl⟩ := Nat.exists_eq_add_of_le h
  rw [E_append n d fun l => f (l.take n)]
  refine congrArg E (funext fun x => ?_)
  have : (fun y : Block d => f ((toBytes x ++ toBytes y).take n)) = fun _ => f (toBytes x) := by
    funext y
    rw [List.take_left' (toBytes_length x)]
  rw [this, E_const]

/-! ## Fresh values -/

variable {α : Type} [Fintype α]

theorem lookup_none_cons {s t : Bytes} {y : Bytes} {L : List (Bytes × Bytes)} (h : s ≠ t) (hL : L.lookup s = none) :
    ((t, y) :: L).lookup s = none := by
  rw [List.lookup_cons, show (s == t) = false by simpa using h]
  exact hL

/-- Strings that have been asked for before. -/
theorem fresh_seen (u : α → Bytes) (L : List (Bytes × Bytes)) (k : Bytes → Att Bytes Bytes) : ∀ (l : List Bytes) (acc : Bytes),
    (∀ s ∈ l, (L.lookup s).isSome) → fresh u L (askAll l acc k) = fresh u L (k (acc ++ l.flatMap fun s => (L.lookup s).getD []))
  | [], acc, _ => by simp [askAll]
  | s :: l, acc, h => by
    obtain ⟨y, hy⟩ := Option.isSome_iff_exists.1 (h s (List.mem_cons_self))
    simp only [askAll, fresh]
    rw [hy]
    simp only
    rw [fresh_seen u L k l _ fun t ht => h t (List.mem_cons_of_mem _ ht), List.flatMap_cons, hy, Option.getD_some, List.append_assoc]

/-- The table after questions at the strings `l` that were answered by consecutive blocks of `b`. -/
def record : List Bytes → Bytes → List (Bytes × Bytes) → List (Bytes × Bytes)
  | [], _, L => L
  | s :: l, b, L => record l (b.drop 64) ((s, b.take 64) :: L)

/-- New strings: the answers are one long uniform string. -/
theorem fresh_new (k : Bytes → Att Bytes Bytes) : ∀ (l : List Bytes) (L : List (Bytes × Bytes)) (acc : Bytes), l.Nodup → (∀ s ∈ l, L.lookup s = none) →
    fresh (fun b : Block 64 => toBytes b) L (askAll l acc k) =
      E fun b : Block (64 * l.length) => fresh (fun b : Block 64 => toBytes b) (record l (toBytes b) L) (k (acc ++ toBytes b))
  | [], L, acc, _, _ => by
    have : (fun b : Block (64 * ([] : List Bytes).length) => fresh (fun b : Block 64 => toBytes b) (record [] (toBytes b) L) (k (acc ++ toBytes b)))
        = fun _ => fresh (fun b : Block 64 => toBytes b) L (k acc) := by
      funext b
      have : toBytes b = [] := List.length_eq_zero_iff.1 (by rw [toBytes_length]; rfl)
      rw [this, List.append_nil]
      rfl
    rw [this, E_const]
    rfl
  | s :: l, L, acc, hn, hL => by
    rw [List.nodup_cons] at hn
    simp only [askAll, fresh]
    rw [hL s List.mem_cons_self]
    simp only
    have e : 64 * (s :: l).length = 64 + 64 * l.length := by rw [List.length_cons]; ring
    rw [e, E_append 64 (64 * l.length) fun b => fresh (fun b : Block 64 => toBytes b) (record (s :: l) b L) (k (acc ++ b))]
    refine congrArg E (funext fun a => ?_)
    rw [fresh_new k l _ _ hn.2 fun t ht => lookup_none_cons (fun h : t = s => hn.1 (h ▸ ht)) (hL t (List.mem_cons_of_mem _ ht))]
    refine congrArg E (funext fun b => ?_)
    rw [record, List.take_left' (toBytes_length a), List.drop_left' (toBytes_length a), List.append_assoc]

theorem record_other : ∀ (l : List Bytes) (b : Bytes) (L : List (Bytes × Bytes)) {t : Bytes}, t ∉ l → (record l b L).lookup t = L.lookup t
  | [], _, _, _, _ => rfl
  | s :: l, b, L, t, h => by
    rw [List.mem_cons, not_or] at h
    rw [record, record_other l _ _ h.2, List.lookup_cons, show (t == s) = false by simpa using h.1]

theorem record_get : ∀ (l : List Bytes) (b : Bytes) (L : List (Bytes × Bytes)), l.Nodup → b.length = 64 * l.length →
    (∀ s ∈ l, ((record l b L).lookup s).isSome) ∧ l.flatMap (fun s => ((record l b L).lookup s).getD []) = b
  | [], b, L, _, hb => ⟨by simp, (List.length_eq_zero_iff.1 hb).symm⟩
  | s :: l, b, L, hn, hb => by
    rw [List.nodup_cons] at hn
    rw [List.length_cons] at hb
    obtain ⟨h1, h2⟩ := record_get l (b.drop 64) ((s, b.take 64) :: L) hn.2 (by rw [List.length_drop]; omega)
    have hs : (record (s :: l) b L).lookup s = some (b.take 64) := by
      rw [record, record_other _ _ _ hn.1, List.lookup_cons]
      simp
    constructor
    · intro t ht
      rcases List.mem_cons.1 ht with rfl | ht
      · rw [hs]; rfl
      · exact h1 t ht
    · rw [List.flatMap_cons, hs, Option.getD_some]
      show b.take 64 ++ l.flatMap (fun t => ((record l (b.drop 64) ((s, b.take 64) :: L)).lookup t).getD []) = b
      rw [h2, List.take_append_drop]

/-- The tables of long values and of short ones belong together. -/
def Rel (inp : Bytes → List Bytes) (nb : Nat) (L S : List (Bytes × Bytes)) : Prop := ∀ m,
  match L.lookup m with
  | some y => (∀ s ∈ inp m, (S.lookup s).isSome) ∧ y = ((inp m).flatMap fun s => (S.lookup s).getD []).take nb
  | none => ∀ s ∈ inp m, S.lookup s = none

/-- Independent uniform blocks make independent uniform long values. -/
theorem fresh_expand {inp : Bytes → List Bytes} {c nb : Nat} (hc : ∀ m, (inp m).length = c) (hn : ∀ m, (inp m).Nodup)
    (hd : ∀ m m' s, s ∈ inp m → s ∈ inp m' → m = m') (hnb : nb ≤ 64 * c) (A : Att Bytes Bytes) : ∀ L S, Rel inp nb L S →
    fresh (fun b : Block 64 => toBytes b) S (expand inp nb A) = fresh (fun b : Block nb => toBytes b) L A := by
  induction A with
  | done b => intro L S _; rfl
  | ask m k ih =>
    intro L S hR
    have hm := hR m
    simp only [expand, fresh]
    cases hl : L.lookup m with
    | some y =>
      rw [hl] at hm
      simp only at hm ⊢
      rw [fresh_seen _ _ _ _ _ hm.1, List.nil_append, ← hm.2]
      exact ih y L S hR
    | none =>
      rw [hl] at hm
      simp only at hm ⊢
      rw [fresh_new _ _ _ _ (hn m) hm]
      have hstep : ∀ b : Block (64 * (inp m).length), Rel inp nb ((m, (toBytes b).take nb) :: L) (record (inp m) (toBytes b) S) := by
        intro b m'
        rw [List.lookup_cons]
        by_cases h : m' = m
        · subst h
          simp only [beq_self_eq_true]
          obtain ⟨h1, h2⟩ := record_get (inp m') (toBytes b) S (hn m') (toBytes_length b)
          exact ⟨h1, by rw [h2]⟩
        · have hb : (m' == m) = false := by simpa using h
          rw [hb]
          have ho : ∀ s ∈ inp m', (record (inp m) (toBytes b) S).lookup s = S.lookup s := fun s hs =>
            record_other _ _ _ fun hs' => h (hd m' m s hs hs')
          have := hR m'
          cases hl' : L.lookup m' with
          | some y =>
            rw [hl'] at this
            simp only at this ⊢
            refine ⟨fun s hs => by rw [ho s hs]; exact this.1 s hs, ?_⟩
            rw [this.2]
            congr 1
            rw [List.flatMap_def, List.flatMap_def]
            congr 1
            exact List.map_congr_left fun s hs => by rw [ho s hs]
          | none =>
            rw [hl'] at this
            simp only at this ⊢
            intro s hs
            rw [ho s hs]
            exact this s hs
      have e : (fun b : Block (64 * (inp m).length) =>
          fresh (fun b : Block 64 => toBytes b) (record (inp m) (toBytes b) S) (expand inp nb (k (([] ++ toBytes b).take nb))))
          = fun b => fresh (fun b : Block nb => toBytes b) ((m, (toBytes b).take nb) :: L) (k ((toBytes b).take nb)) := by
        funext b
        rw [List.nil_append]
        exact ih _ _ _ (hstep b)
      rw [e]
      exact E_take (by rw [hc]; exact hnb) fun y => fresh (fun b : Block nb => toBytes b) ((m, y) :: L) (k y)

/-- The advantage against the long function is that of an attack on the short one. -/
theorem adv_expand {m : Nat} {inp : Bytes → List Bytes} {c nb : Nat} (hc : ∀ m, (inp m).length = c) (hn : ∀ m, (inp m).Nodup)
    (hd : ∀ m m' s, s ∈ inp m → s ∈ inp m' → m = m') (hnb : nb ≤ 64 * c) (F : Bytes → Bytes → Bytes) (A : Att Bytes Bytes) :
    advPrf (m := m) (fun k s => ((inp s).flatMap (F k)).take nb) nb A = advPrf (m := m) F 64 (expand inp nb A) := by
  unfold advPrf
  rw [fresh_expand hc hn hd hnb A [] [] fun m => by simp]
  simp only [play_expand]

end Verif.Oracle
